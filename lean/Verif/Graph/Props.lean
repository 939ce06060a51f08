import Verif.Graph.PathLemmas
import Verif.Graph.DagLemmas
import Verif.Graph.CircuitLemmas

/-! # C77: the graph constraints mean what they say -/

namespace MZ.Graph
open MZ.Globals MZ.Graph.Spec

/-! ## Subgraphs and reachability -/

/-- `subgraph`: the end points of selected edges are selected nodes. -/
theorem _root_.MZ.C77_subgraph_int (N E : Int) (src dst : Int → Int) (ns es : Int → Prop) :
    fznSubgraphInt N E src dst ns es ↔
      Subgraph ⟨1, N, 1, E, src, dst⟩ (selected 1 N ns) (selected 1 E es) := subgraphInt_iff ..

/-- `subgraph` on any index sets. -/
theorem _root_.MZ.C77_subgraph_enum (g : Digraph) (ns es : Int → Prop) :
    fznSubgraphEnum g ns es ↔ Subgraph g (selected g.nlo g.nhi ns) (selected g.elo g.ehi es) := subgraphEnum_iff ..

/-- `dreachable` with numbered nodes: local distances and parents exist exactly when every selected node is reachable
from the root along selected edges. -/
theorem _root_.MZ.C77_dreachable_int (N E : Int) (src dst : Int → Int) (root : Int) (ns es : Int → Prop) :
    fznDreachableInt N E src dst root ns es ↔
      DReachable ⟨1, N, 1, E, src, dst⟩ root (selected 1 N ns) (selected 1 E es) := dreachableInt_iff ..

/-- `dreachable` on any index sets. -/
theorem _root_.MZ.C77_dreachable_enum (g : Digraph) (root : Int) (ns es : Int → Prop) :
    fznDreachableEnum g root ns es ↔ DReachable g root (selected g.nlo g.nhi ns) (selected g.elo g.ehi es) :=
  dreachableEnum_iff ..

theorem edges_int (N E : Int) (hE : 0 ≤ E) (src dst : Int → Int) : edges ⟨1, N, 1, E, src, dst⟩ = E := by
  rw [edges_eq]
  dsimp only
  omega

/-- `reachable` with numbered nodes: edges may be used in either direction. -/
theorem _root_.MZ.C77_reachable_int (N E : Int) (hE : 0 ≤ E) (src dst : Int → Int) (root : Int) (ns es : Int → Prop) :
    fznReachableInt N E src dst root ns es ↔
      Reachable ⟨1, N, 1, E, src, dst⟩ root (selected 1 N ns) (selected 1 E es) := by
  unfold fznReachableInt
  rw [dreachableInt_iff, ← both_int N E hE]
  have := reachable_both ⟨1, N, 1, E, src, dst⟩ root (selected 1 N ns) es
  rw [edges_int N E hE] at this
  exact this

/-- `reachable` on any index sets. -/
theorem _root_.MZ.C77_reachable_enum (g : Digraph) (root : Int) (ns es : Int → Prop) :
    fznReachableEnum g root ns es ↔ Reachable g root (selected g.nlo g.nhi ns) (selected g.elo g.ehi es) := by
  unfold fznReachableEnum
  rw [dreachableEnum_iff]
  have := reachable_both g root (selected g.nlo g.nhi ns) es
  refine Iff.trans ⟨fun h => h.2, fun h => ⟨?_, h⟩⟩ this
  have hr := mem_selected.mp h.1
  exact ⟨hr.1, hr.2.1⟩

theorem link_symm (g : Digraph) (A : Finset Int) : ∀ a b, Link g A a b → Link g A b a := fun _ _ h => h.symm

theorem reach_symm (g : Digraph) (A : Finset Int) {a b : Int} (h : Relation.ReflTransGen (Link g A) a b) :
    Relation.ReflTransGen (Link g A) b a := by
  induction h with
  | refl => exact .refl
  | tail _ hs ih => exact .head (link_symm g A _ _ hs) ih

/-- `connected`: some node is selected and the selected nodes are joined by selected edges. -/
theorem _root_.MZ.C77_connected (g : Digraph) (ns es : Int → Prop) :
    fznConnected g ns es ↔ Connected g (selected g.nlo g.nhi ns) (selected g.elo g.ehi es) := by
  unfold fznConnected Connected
  constructor
  · rintro ⟨r, -, h⟩
    obtain ⟨h1, h2, h3⟩ := (C77_reachable_enum ..).mp h
    exact ⟨⟨r, h1⟩, h2, fun a ha b hb => (reach_symm _ _ (h3 a ha)).trans (h3 b hb)⟩
  · rintro ⟨⟨r, hr⟩, h2, h3⟩
    have hr' := mem_selected.mp hr
    exact ⟨r, ⟨hr'.1, hr'.2.1⟩, (C77_reachable_enum ..).mpr ⟨hr, h2, fun n hn => h3 r hr n hn⟩⟩

/-- `dconnected` says that all selected nodes can be reached from one of them.  Strong connection implies it, and it
implies connection when the directions are ignored. -/
theorem _root_.MZ.C77_dconnected_partial (g : Digraph) (ns es : Int → Prop) :
    (fznDconnected g ns es ↔ ∃ r, DReachable g r (selected g.nlo g.nhi ns) (selected g.elo g.ehi es)) ∧
    (StronglyConnected g (selected g.nlo g.nhi ns) (selected g.elo g.ehi es) → fznDconnected g ns es) ∧
    (fznDconnected g ns es → Connected g (selected g.nlo g.nhi ns) (selected g.elo g.ehi es)) := by
  have h1 : fznDconnected g ns es ↔ ∃ r, DReachable g r (selected g.nlo g.nhi ns) (selected g.elo g.ehi es) := by
    unfold fznDconnected
    constructor
    · rintro ⟨r, -, h⟩
      exact ⟨r, (dreachableEnum_iff ..).mp h⟩
    · rintro ⟨r, h⟩
      have hr := mem_selected.mp h.1
      exact ⟨r, ⟨hr.1, hr.2.1⟩, (dreachableEnum_iff ..).mpr h⟩
  refine ⟨h1, ?_, ?_⟩
  · rintro ⟨⟨r, hr⟩, h2, h3⟩
    exact h1.mpr ⟨r, hr, h2, fun n hn => h3 r hr n hn⟩
  · intro h
    obtain ⟨r, hr, h2, h3⟩ := h1.mp h
    have h4 : ∀ n ∈ selected g.nlo g.nhi ns,
        Relation.ReflTransGen (Link g (selected g.elo g.ehi es)) r n :=
      fun n hn => reach_mono (fun a b => .inl) (h3 n hn)
    exact ⟨⟨r, hr⟩, h2, fun a ha b hb => (reach_symm _ _ (h4 a ha)).trans (h4 b hb)⟩

/-- The graph `1 → 2`. -/
def gEdge : Digraph := ⟨1, 2, 1, 1, fun _ => 1, fun _ => 2⟩

/-- The graph `1 → 3 ← 2`. -/
def gJoin : Digraph := ⟨1, 3, 1, 2, fun e => e, fun _ => 3⟩

theorem edge_path : IsPath (along gEdge) 1 2 (selected 1 2 fun _ => True) (selected 1 1 fun _ => True) := by
  have h1 : selected 1 2 (fun _ => True) = insert 1 {2} := by
    ext i; rw [mem_selected]; simp; omega
  have h2 : selected 1 1 (fun _ => True) = insert 1 ∅ := by
    ext i; rw [mem_selected]; simp; omega
  rw [h1, h2]
  exact .cons 1 1 2 2 _ _ ⟨by decide, by decide, rfl, rfl⟩ (by decide) (.single 2)

/-- `dconnected` is neither strong nor weak connection: it accepts `1 → 2`, which is not strongly connected, and
rejects `1 → 3 ← 2`, which is connected when the directions are ignored. -/
theorem _root_.MZ.C77_dconnected_fails :
    (fznDconnected gEdge (fun _ => True) (fun _ => True) ∧
      ¬ StronglyConnected gEdge (selected 1 2 fun _ => True) (selected 1 1 fun _ => True)) ∧
    (Connected gJoin (selected 1 3 fun _ => True) (selected 1 2 fun _ => True) ∧
      ¬ fznDconnected gJoin (fun _ => True) (fun _ => True)) := by
  refine ⟨⟨(C77_dconnected_partial ..).1.mpr ⟨1, (trees_of_path (fun _ _ _ h => h.2.2) edge_path).1.1⟩, ?_⟩, ⟨?_, ?_⟩⟩
  · rintro ⟨-, -, h⟩
    have := h 2 (by rw [mem_selected]; simp) 1 (by rw [mem_selected]; simp)
    rcases Relation.ReflTransGen.cases_head this with h | ⟨b, ⟨e, -, h1, -⟩, -⟩
    · omega
    · change (1 : Int) = 2 at h1
      omega
  · have hl : ∀ a, (a = 1 ∨ a = 2) → Link gJoin (selected 1 2 fun _ => True) a 3 := by
      intro a ha
      exact .inl ⟨a, by rw [mem_selected]; refine ⟨?_, ?_, trivial⟩ <;> omega, rfl, rfl⟩
    have h3 : ∀ a ∈ selected 1 3 (fun _ => True),
        Relation.ReflTransGen (Link gJoin (selected 1 2 fun _ => True)) a 3 := by
      intro a ha
      obtain ⟨h1, h2, -⟩ := mem_selected.mp ha
      by_cases h : a = 3
      · rw [h]
      · exact .single (hl a (by omega))
    refine ⟨⟨1, by rw [mem_selected]; simp⟩, ?_, fun a ha b hb => (h3 a ha).trans (reach_symm _ _ (h3 b hb))⟩
    intro e he
    obtain ⟨h1, h2, -⟩ := mem_selected.mp he
    refine ⟨mem_selected.mpr ⟨h1, ?_, trivial⟩, mem_selected.mpr ⟨?_, ?_, trivial⟩⟩
    · change e ≤ 3; omega
    · change (1 : Int) ≤ 3; omega
    · change (3 : Int) ≤ 3; omega
  · intro h
    obtain ⟨r, hr, -, h3⟩ := (C77_dconnected_partial ..).1.mp h
    have hto : ∀ n, n ≠ 3 → n ∈ selected gJoin.nlo gJoin.nhi (fun _ => True) → n = r := by
      intro n hn hm
      rcases Relation.ReflTransGen.cases_tail (h3 n hm) with h | ⟨b, -, e, -, -, h1⟩
      · exact h
      · exact absurd h1.symm hn
    have h1 := hto 1 (by decide) (by rw [mem_selected]; simp [gJoin])
    have h2 := hto 2 (by decide) (by rw [mem_selected]; simp [gJoin])
    omega

example : fznReachableInt 2 1 (fun _ => 1) (fun _ => 2) 2 (fun _ => True) (fun _ => True) := by
  refine (C77_reachable_int 2 1 (by decide) ..).mpr ?_
  obtain ⟨⟨h1, h2, h3⟩, -⟩ := (trees_of_path (g := gEdge) (fun _ _ _ h => h.2.2) edge_path).2
  exact ⟨h1, fun e he => (h2 e he).symm, fun n hn => reach_mono (fun a b hs => .inr (by
    obtain ⟨e, he, h1, h2⟩ := hs
    exact ⟨e, he, h2, h1⟩)) (h3 n hn)⟩

/-! ## Trees -/

/-- `dtree` with numbered nodes. -/
theorem _root_.MZ.C77_dtree_int (N E : Int) (src dst : Int → Int) (root : Int) (ns es : Int → Prop) :
    fznDtreeInt N E src dst root ns es ↔
      DTree ⟨1, N, 1, E, src, dst⟩ root (selected 1 N ns) (selected 1 E es) := dtreeInt_iff ..

/-- `dtree` on any index sets. -/
theorem _root_.MZ.C77_dtree_enum (g : Digraph) (root : Int) (ns es : Int → Prop) :
    fznDtreeEnum g root ns es ↔ DTree g root (selected g.nlo g.nhi ns) (selected g.elo g.ehi es) :=
  dtreeEnum_iff ..

/-- `tree` with numbered nodes. -/
theorem _root_.MZ.C77_tree_int (N E : Int) (hE : 0 ≤ E) (src dst : Int → Int) (root : Int) (ns es : Int → Prop) :
    fznTreeInt N E src dst root ns es ↔
      Tree ⟨1, N, 1, E, src, dst⟩ root (selected 1 N ns) (selected 1 E es) := by
  unfold fznTreeInt
  have hag : ∀ des : Int → Prop, (∀ e, 1 ≤ e → e ≤ E → (es e ↔ des e ∨ des (e + E))) ↔
      Agree ⟨1, N, 1, E, src, dst⟩ es des := by
    intro des
    unfold Agree
    rw [edges_int N E hE]
    refine forall_congr' fun e => ?_
    dsimp only
    rw [show e - 1 + 1 = e by omega]
  constructor
  · rintro ⟨des, h1, h2⟩
    rw [dtreeInt_iff, ← both_int N E hE] at h2
    have := tree_of_both ((hag des).mp h1) (root := root) (V := selected 1 N ns) (by rw [edges_int N E hE]; exact h2)
    exact this
  · intro h
    obtain ⟨des, h1, h2⟩ := both_of_tree (g := ⟨1, N, 1, E, src, dst⟩) h
    refine ⟨des, (hag des).mpr h1, ?_⟩
    rw [dtreeInt_iff, ← both_int N E hE]
    rw [edges_int N E hE] at h2
    exact h2

/-- `tree` on any index sets. -/
theorem _root_.MZ.C77_tree_enum (g : Digraph) (root : Int) (ns es : Int → Prop) :
    fznTreeEnum g root ns es ↔ Tree g root (selected g.nlo g.nhi ns) (selected g.elo g.ehi es) := by
  unfold fznTreeEnum
  constructor
  · rintro ⟨des, h1, h2⟩
    rw [dtreeEnum_iff] at h2
    exact tree_of_both (des := des) h1 h2
  · intro h
    obtain ⟨des, h1, h2⟩ := both_of_tree h
    exact ⟨des, h1, (dtreeEnum_iff ..).mpr h2⟩

/-- A rooted directed tree is a tree when the directions are ignored. -/
theorem _root_.MZ.C77_dtree_is_tree (g : Digraph) (root : Int) (ns es : Int → Prop) :
    fznDtreeEnum g root ns es → fznTreeEnum g root ns es := by
  rw [C77_dtree_enum, C77_tree_enum]
  intro h
  exact ⟨⟨h.1.1, h.1.2.1, fun n hn => reach_mono (fun a b => .inl) (h.1.2.2 n hn)⟩, card_of_dtree h⟩

example : fznDtreeInt 2 1 (fun _ => 1) (fun _ => 2) 1 (fun _ => True) (fun _ => True) :=
  (C77_dtree_int ..).mpr (trees_of_path (g := gEdge) (fun _ _ _ h => h.2.2) edge_path).1

example : fznTreeEnum gEdge 1 (fun _ => True) (fun _ => True) :=
  C77_dtree_is_tree _ _ _ _ ((C77_dtree_enum ..).mpr (trees_of_path (g := gEdge) (fun _ _ _ h => h.2.2) edge_path).1)

/-- Two parallel edges are not a tree. -/
example : ¬ fznTreeInt 2 2 (fun _ => 1) (fun _ => 2) 1 (fun _ => True) (fun _ => True) := by
  intro h
  have := ((C77_tree_int 2 2 (by decide) ..).mp h).2
  have e : ∀ m : Int, selected 1 m (fun _ => True) = Finset.Icc 1 m := by
    intro m; ext i; rw [mem_selected]; simp
  rw [e, Int.card_Icc] at this
  omega

/-! ## Weights -/

theorem selected_all {N : Int} {ns : Int → Prop} (h : ∀ n, 1 ≤ n → n ≤ N → ns n) :
    selected 1 N (fun _ => True) = selected 1 N ns := by
  ext i
  rw [mem_selected, mem_selected]
  exact ⟨fun hi => ⟨hi.1, hi.2.1, h i hi.1 hi.2.1⟩, fun hi => ⟨hi.1, hi.2.1, trivial⟩⟩

theorem fznSteiner_iff (N E : Int) (hE : 0 ≤ E) (src dst w : Int → Int) (ns es : Int → Prop) (weight : Int) :
    fznSteiner N E src dst w ns es weight ↔
      (∃ r, Tree ⟨1, N, 1, E, src, dst⟩ r (selected 1 N ns) (selected 1 E es)) ∧
        weight = ∑ e ∈ selected 1 E es, w e := by
  unfold fznSteiner
  rw [wsum_eq]
  constructor
  · rintro ⟨r, -, h1, h2⟩
    exact ⟨⟨r, (C77_tree_int N E hE ..).mp h1⟩, h2⟩
  · rintro ⟨⟨r, h1⟩, h2⟩
    have hr := mem_selected.mp h1.1.1
    exact ⟨r, ⟨hr.1, hr.2.1⟩, (C77_tree_int N E hE ..).mpr h1, h2⟩

/-- `steiner`: the subgraph is a tree and `weight` is the sum of the weights of its edges, whether or not the compiler
replaces the constraint by a spanning tree because all nodes are fixed to be selected. -/
theorem _root_.MZ.C77_steiner (fixedTrue : Bool) (N E : Int) (hE : 0 ≤ E) (src dst w : Int → Int) (ns es : Int → Prop)
    (weight : Int) (hf : fixedTrue = true → ∀ n, 1 ≤ n → n ≤ N → ns n) :
    steiner fixedTrue N E src dst w ns es weight ↔
      (∃ r, Tree ⟨1, N, 1, E, src, dst⟩ r (selected 1 N ns) (selected 1 E es)) ∧
        weight = ∑ e ∈ selected 1 E es, w e := by
  unfold steiner
  cases fixedTrue
  · exact fznSteiner_iff N E hE ..
  · rw [← selected_all (hf rfl)]
    exact fznSteiner_iff N E hE ..

theorem fznDsteiner_iff (N E : Int) (src dst w : Int → Int) (root : Int) (ns es : Int → Prop) (weight : Int) :
    fznDsteiner N E src dst w root ns es weight ↔
      DTree ⟨1, N, 1, E, src, dst⟩ root (selected 1 N ns) (selected 1 E es) ∧
        weight = ∑ e ∈ selected 1 E es, w e := by
  unfold fznDsteiner
  rw [wsum_eq, C77_dtree_int]

/-- `dsteiner`. -/
theorem _root_.MZ.C77_dsteiner (fixedTrue : Bool) (N E : Int) (src dst w : Int → Int) (root : Int) (ns es : Int → Prop)
    (weight : Int) (hf : fixedTrue = true → ∀ n, 1 ≤ n → n ≤ N → ns n) :
    dsteiner fixedTrue N E src dst w root ns es weight ↔
      DTree ⟨1, N, 1, E, src, dst⟩ root (selected 1 N ns) (selected 1 E es) ∧
        weight = ∑ e ∈ selected 1 E es, w e := by
  unfold dsteiner
  cases fixedTrue
  · exact fznDsteiner_iff ..
  · rw [← selected_all (hf rfl)]
    exact fznDsteiner_iff ..

/-- `weighted_spanning_tree` with numbered nodes: a tree that has all nodes. -/
theorem _root_.MZ.C77_weighted_spanning_tree (N E : Int) (hE : 0 ≤ E) (src dst w : Int → Int) (es : Int → Prop)
    (weight : Int) :
    fznWst N E src dst w es weight ↔
      (∃ r, Tree ⟨1, N, 1, E, src, dst⟩ r (Finset.Icc 1 N) (selected 1 E es)) ∧
        weight = ∑ e ∈ selected 1 E es, w e := by
  have hV : Finset.Icc 1 N = selected 1 N (fun _ => True) := by
    ext i; rw [mem_selected, Finset.mem_Icc]; tauto
  rw [hV]
  exact fznSteiner_iff N E hE ..

/-- `d_weighted_spanning_tree` with numbered nodes. -/
theorem _root_.MZ.C77_d_weighted_spanning_tree (N E : Int) (src dst w : Int → Int) (root : Int) (es : Int → Prop)
    (weight : Int) :
    fznDwst N E src dst w root es weight ↔
      DTree ⟨1, N, 1, E, src, dst⟩ root (Finset.Icc 1 N) (selected 1 E es) ∧
        weight = ∑ e ∈ selected 1 E es, w e := by
  have hV : Finset.Icc 1 N = selected 1 N (fun _ => True) := by
    ext i; rw [mem_selected, Finset.mem_Icc]; tauto
  rw [hV]
  exact fznDsteiner_iff ..

/-- The versions without numbers mean the same for edges `1..E` when there is an edge; the nodes are `1..max`.
Missing: other index sets (the renumbering of edges by `array1d`). -/
theorem _root_.MZ.C77_weighted_spanning_tree_partial (E : Int) (hE : 1 ≤ E) (src dst w : Int → Int) (root : Int)
    (es : Int → Prop) (weight : Int) :
    let N := max (maxOf (Finset.Icc 1 E) src) (maxOf (Finset.Icc 1 E) dst)
    (weightedSpanningTree 1 E src dst w es weight ↔
      (∃ r, Tree ⟨1, N, 1, E, src, dst⟩ r (Finset.Icc 1 N) (selected 1 E es)) ∧
        weight = ∑ e ∈ selected 1 E es, w e) ∧
    (dWeightedSpanningTree 1 E src dst w root es weight ↔
      DTree ⟨1, N, 1, E, src, dst⟩ root (Finset.Icc 1 N) (selected 1 E es) ∧
        weight = ∑ e ∈ selected 1 E es, w e) := by
  intro N
  have hc : ((Finset.Icc 1 E).card : Int) = E := by rw [Int.card_Icc]; omega
  have hk : ∀ k : Int, 1 + k - 1 = k := fun k => by omega
  constructor
  · unfold weightedSpanningTree
    dsimp only
    rw [hc]
    simp only [hk]
    rw [← C77_weighted_spanning_tree N E (by omega)]
    exact ⟨fun h => h (by omega), fun h _ => h⟩
  · unfold dWeightedSpanningTree
    dsimp only
    rw [hc]
    simp only [hk]
    rw [← C77_d_weighted_spanning_tree]
    exact ⟨fun h => h (by omega), fun h _ => h⟩

/-- Without edges these versions constrain nothing: any weight and any root are accepted. -/
theorem _root_.MZ.C77_weighted_spanning_tree_fails (src dst w : Int → Int) (es : Int → Prop) :
    (∀ weight, weightedSpanningTree 1 0 src dst w es weight) ∧
    (∀ root weight, dWeightedSpanningTree 1 0 src dst w root es weight) ∧
    ∃ weight, weight ≠ ∑ e ∈ selected 1 0 es, w e := by
  refine ⟨fun _ h => absurd h (by simp), fun _ _ h => absurd h (by simp), _, (ne_of_gt (lt_add_one _))⟩

example : fznWst 2 1 (fun _ => 1) (fun _ => 2) (fun _ => 5) (fun _ => True) 5 := by
  refine (C77_steiner true 2 1 (by decide) (fun _ => 1) (fun _ => 2) (fun _ => 5) (fun _ => True) (fun _ => True) 5
    (fun _ _ _ _ => trivial)).mpr ⟨⟨1, ?_⟩, ?_⟩
  · exact (C77_tree_enum gEdge 1 (fun _ => True) (fun _ => True)).mp (C77_dtree_is_tree _ _ _ _
      ((C77_dtree_enum ..).mpr (trees_of_path (g := gEdge) (fun _ _ _ h => h.2.2) edge_path).1))
  · have h2 : selected 1 1 (fun _ => True) = {1} := by
      ext i; rw [mem_selected]; simp; omega
    rw [h2]
    simp

/-! ## Paths -/

/-- `dpath` with numbered nodes. -/
theorem _root_.MZ.C77_dpath_int (N E : Int) (src dst : Int → Int) (s t : Int) (ns es : Int → Prop) :
    fznDpathInt N E src dst s t ns es ↔
      IsPath (along ⟨1, N, 1, E, src, dst⟩) s t (selected 1 N ns) (selected 1 E es) := dpathInt_iff ..

/-- `dpath` on any index sets. -/
theorem _root_.MZ.C77_dpath_enum (g : Digraph) (s t : Int) (ns es : Int → Prop) :
    fznDpathEnum g s t ns es ↔
      IsPath (along g) s t (selected g.nlo g.nhi ns) (selected g.elo g.ehi es) := dpathEnum_iff ..

/-- `path` with numbered nodes. -/
theorem _root_.MZ.C77_path_int (N E : Int) (hE : 0 ≤ E) (src dst : Int → Int) (s t : Int) (ns es : Int → Prop) :
    fznPathInt N E src dst s t ns es ↔
      IsPath (either ⟨1, N, 1, E, src, dst⟩) s t (selected 1 N ns) (selected 1 E es) := by
  unfold fznPathInt
  rw [← path_both ⟨1, N, 1, E, src, dst⟩ s t (selected 1 N ns) es]
  refine exists_congr fun des => ?_
  have hag : (∀ e, 1 ≤ e → e ≤ E → (es e ↔ des e ∨ des (e + E))) ↔ Agree ⟨1, N, 1, E, src, dst⟩ es des := by
    unfold Agree
    rw [edges_int N E hE]
    refine forall_congr' fun e => ?_
    dsimp only
    rw [show e - 1 + 1 = e by omega]
  rw [hag, dpathInt_iff, ← both_int N E hE, edges_int N E hE]

/-- `path` on any index sets. -/
theorem _root_.MZ.C77_path_enum (g : Digraph) (s t : Int) (ns es : Int → Prop) :
    fznPathEnum g s t ns es ↔
      IsPath (either g) s t (selected g.nlo g.nhi ns) (selected g.elo g.ehi es) := by
  unfold fznPathEnum
  rw [← path_both g s t (selected g.nlo g.nhi ns) es]
  refine exists_congr fun des => ?_
  rw [dpathEnum_iff]
  exact Iff.rfl

/-- `bounded_path` and `bounded_dpath`: a path whose weight is the sum of the weights of its edges. -/
theorem _root_.MZ.C77_bounded_path (g : Digraph) (w : Int → Int) (s t : Int) (ns es : Int → Prop) (weight : Int) :
    (fznBoundedPathEnum g w s t ns es weight ↔
      IsPath (either g) s t (selected g.nlo g.nhi ns) (selected g.elo g.ehi es) ∧
        weight = ∑ e ∈ selected g.elo g.ehi es, w e) ∧
    (fznBoundedDpathEnum g w s t ns es weight ↔
      IsPath (along g) s t (selected g.nlo g.nhi ns) (selected g.elo g.ehi es) ∧
        weight = ∑ e ∈ selected g.elo g.ehi es, w e) := by
  unfold fznBoundedPathEnum fznBoundedDpathEnum
  rw [C77_path_enum, C77_dpath_enum, wsum_eq]
  exact ⟨Iff.rfl, Iff.rfl⟩

/-- The same with numbered nodes. -/
theorem _root_.MZ.C77_bounded_path_int (N E : Int) (hE : 0 ≤ E) (src dst w : Int → Int) (s t : Int)
    (ns es : Int → Prop) (weight : Int) :
    (fznBoundedPathInt N E src dst w s t ns es weight ↔
      IsPath (either ⟨1, N, 1, E, src, dst⟩) s t (selected 1 N ns) (selected 1 E es) ∧
        weight = ∑ e ∈ selected 1 E es, w e) ∧
    (fznBoundedDpathInt N E src dst w s t ns es weight ↔
      IsPath (along ⟨1, N, 1, E, src, dst⟩) s t (selected 1 N ns) (selected 1 E es) ∧
        weight = ∑ e ∈ selected 1 E es, w e) := by
  unfold fznBoundedPathInt fznBoundedDpathInt
  rw [C77_path_int N E hE, C77_dpath_int, wsum_eq]
  exact ⟨Iff.rfl, Iff.rfl⟩

example : fznDpathInt 2 1 (fun _ => 1) (fun _ => 2) 1 2 (fun _ => True) (fun _ => True) :=
  (C77_dpath_int ..).mpr edge_path

/-- An undirected edge can be walked backwards. -/
example : fznPathEnum gEdge 2 1 (fun _ => True) (fun _ => True) := by
  refine (C77_path_enum ..).mpr ?_
  have h1 : selected gEdge.nlo gEdge.nhi (fun _ => True) = insert 2 {1} := by
    ext i; rw [mem_selected]; simp [gEdge]; omega
  have h2 : selected gEdge.elo gEdge.ehi (fun _ => True) = insert 1 ∅ := by
    ext i; rw [mem_selected]; simp [gEdge]; omega
  rw [h1, h2]
  exact .cons 1 2 1 1 _ _ (.inr ⟨by decide, by decide, rfl, rfl⟩) (by decide) (.single 1)

/-! ## Acyclic subgraphs -/

/-- `dag` accepts exactly the acyclic selections of edges that end in selected nodes.  For subgraphs that is what the
documentation says; missing is that edges start in selected nodes. -/
theorem _root_.MZ.C77_dag_partial (g : Digraph) (hg : InRange g) (ns es : Int → Prop) :
    (fznDag g ns es ↔ Acyclic g (selected g.elo g.ehi es) ∧
      ∀ e ∈ selected g.elo g.ehi es, g.dst e ∈ selected g.nlo g.nhi ns) ∧
    (Subgraph g (selected g.nlo g.nhi ns) (selected g.elo g.ehi es) →
      (fznDag g ns es ↔ Acyclic g (selected g.elo g.ehi es))) := by
  refine ⟨dag_iff g hg ns es, fun hs => ?_⟩
  rw [dag_iff g hg]
  exact ⟨fun h => h.1, fun h => ⟨h, fun e he => (hs e he).2⟩⟩

theorem gEdge_range : InRange gEdge := by
  intro e _ _
  dsimp only [gEdge]
  omega

theorem gEdge_acyclic (es : Int → Prop) : Acyclic gEdge (selected gEdge.elo gEdge.ehi es) := by
  intro n h
  have key : ∀ a b, Relation.TransGen (Step gEdge (selected gEdge.elo gEdge.ehi es)) a b → a = 1 ∧ b = 2 := by
    intro a b hab
    induction hab with
    | single hs => obtain ⟨e, -, rfl, rfl⟩ := hs; exact ⟨rfl, rfl⟩
    | tail _ hs ih => obtain ⟨e, -, h1, rfl⟩ := hs; exact ⟨ih.1, rfl⟩
  have := key n n h
  omega

/-- `dag` accepts a selected edge whose start is not selected: not a subgraph. -/
theorem _root_.MZ.C77_dag_fails :
    fznDag gEdge (fun n => n = 2) (fun _ => True) ∧
      ¬ Subgraph gEdge (selected 1 2 fun n => n = 2) (selected 1 1 fun _ => True) := by
  refine ⟨(C77_dag_partial gEdge gEdge_range ..).1.mpr ⟨gEdge_acyclic _, fun e _ => ?_⟩, fun h => ?_⟩
  · exact mem_selected.mpr ⟨(by decide : (1 : Int) ≤ 2), (by decide : (2 : Int) ≤ 2), rfl⟩
  · have := (mem_selected.mp (h 1 (mem_selected.mpr ⟨by decide, by decide, trivial⟩)).1).2.2
    exact absurd this (by decide)

example : fznDag gEdge (fun _ => True) (fun _ => True) :=
  (C77_dag_partial gEdge gEdge_range ..).1.mpr ⟨gEdge_acyclic _, fun _ _ =>
    mem_selected.mpr ⟨(by decide : (1 : Int) ≤ 2), (by decide : (2 : Int) ≤ 2), trivial⟩⟩

/-! ## Circuits -/

/-- `circuit`: the successors form a single cycle through all nodes.  Missing: a single node. -/
theorem _root_.MZ.C77_circuit_partial (xs : Arr Int) (h1 : xs.len ≠ 1) : fznCircuit xs ↔ Circuit xs := circuit_iff xs h1

/-- A single node that is its own successor is rejected. -/
theorem _root_.MZ.C77_circuit_fails :
    Circuit ⟨1, 1, fun _ => 1⟩ ∧ ∀ xs : Arr Int, xs.len = 1 → ¬ fznCircuit xs := by
  refine ⟨⟨?_, ?_⟩, not_circuit_one⟩
  · intro i hi
    simp [Arr.mem_idx]
  · intro i hi j hj
    rw [Arr.mem_idx] at hi hj
    dsimp only at hi hj
    exact ⟨0, by simp; omega⟩

/-- `subcircuit`: the nodes that are not their own successor form a single cycle. -/
theorem _root_.MZ.C77_subcircuit (xs : Arr Int) : fznSubcircuit xs ↔ Subcircuit xs := subcircuit_iff xs

/-- `circuit` with absent successors. -/
theorem _root_.MZ.C77_circuit_opt (xs : Arr (Option Int)) : fznCircuitOpt xs ↔ CircuitOpt xs := circuitOpt_iff xs

/-- The cycle `1 → 2 → 1`. -/
example : fznCircuit ⟨1, 2, fun i => 3 - i⟩ := by
  refine (C77_circuit_partial _ (by decide)).mpr ⟨?_, ?_⟩
  · intro i hi
    rw [Arr.mem_idx] at hi ⊢
    dsimp only at hi ⊢
    omega
  · intro i hi j hj
    rw [Arr.mem_idx] at hi hj
    dsimp only at hi hj
    by_cases h : i = j
    · exact ⟨0, h⟩
    · refine ⟨1, ?_⟩
      simp only [Function.iterate_one]
      omega

/-- Node 3 is left out. -/
example : fznSubcircuit ⟨1, 3, fun i => if i = 3 then 3 else 3 - i⟩ := by
  refine (C77_subcircuit _).mpr ⟨?_, ?_⟩
  · intro i hi
    rw [Arr.mem_idx] at hi ⊢
    dsimp only at hi ⊢
    split <;> omega
  · intro i hi j hj h1 h2
    rw [Arr.mem_idx] at hi hj
    dsimp only at hi hj h1 h2
    have hi' : i = 1 ∨ i = 2 := by by_contra hc; rw [if_pos (by omega)] at h1; omega
    have hj' : j = 1 ∨ j = 2 := by by_contra hc; rw [if_pos (by omega)] at h2; omega
    rcases hi' with rfl | rfl <;> rcases hj' with rfl | rfl
    · exact ⟨1, by decide⟩
    · exact ⟨0, by decide⟩
    · exact ⟨0, by decide⟩
    · exact ⟨1, by decide⟩

/-- Two cycles are not a circuit. -/
example : ¬ fznSubcircuit ⟨1, 4, fun i => if i ≤ 2 then 3 - i else 7 - i⟩ := by
  intro h
  obtain ⟨k, hk⟩ := ((C77_subcircuit _).mp h).2 1 (by decide) 3 (by decide) (by decide) (by decide)
  have : ∀ k : Nat, (fun i : Int => if i ≤ 2 then 3 - i else 7 - i)^[k] 1 = 1 ∨
      (fun i : Int => if i ≤ 2 then 3 - i else 7 - i)^[k] 1 = 2 := by
    intro k
    induction k with
    | zero => exact .inl rfl
    | succ k ih =>
      rw [Function.iterate_succ_apply']
      rcases ih with h | h <;> rw [h] <;> simp
  have h2 := this (k + 1)
  dsimp only at hk
  omega

end MZ.Graph
