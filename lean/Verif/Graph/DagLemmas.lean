import Verif.Graph.Reach
import Mathlib.Data.Finset.Fold
import Mathlib.Data.Nat.Find

/-! # Acyclic subgraphs -/

namespace MZ.Graph
open MZ.Globals MZ.Graph.Spec

theorem trans_of_walk {R : Int → Int → Prop} {m p n : Int} {k : Nat} (h : Walk R m k p) (hs : R p n) :
    Relation.TransGen R m n :=
  Relation.TransGen.tail' (reach_of_walk h) hs

open Classical in
/-- The nodes from which `n` is reached by one or more steps. -/
noncomputable def anc (V : Finset Int) (R : Int → Int → Prop) (n : Int) : Finset Int :=
  V.filter fun m => Relation.TransGen R m n

theorem walk_le {V : Finset Int} {R : Int → Int → Prop} (hR : ∀ a b, R a b → a ∈ V)
    (hac : ∀ n, ¬ Relation.TransGen R n n) : ∀ (k : Nat) (m n : Int), Walk R m k n → k ≤ (anc V R n).card := by
  classical
  intro k
  induction k with
  | zero => intro m n _; omega
  | succ k ih =>
    rintro m n ⟨p, hp, hs⟩
    have h1 := ih m p hp
    have hsub : insert p (anc V R p) ⊆ anc V R n := by
      intro q hq
      rcases Finset.mem_insert.mp hq with rfl | hq
      · exact Finset.mem_filter.mpr ⟨hR _ _ hs, .single hs⟩
      · obtain ⟨hq1, hq2⟩ := Finset.mem_filter.mp hq
        exact Finset.mem_filter.mpr ⟨hq1, hq2.tail hs⟩
    have := Finset.card_le_card hsub
    have hnp : p ∉ anc V R p := fun h => hac p (Finset.mem_filter.mp h).2
    rw [Finset.card_insert_of_notMem hnp] at this
    omega

theorem anc_lt {V : Finset Int} {R : Int → Int → Prop} (hac : ∀ n, ¬ Relation.TransGen R n n) {n : Int}
    (hn : n ∈ V) : (anc V R n).card + 1 ≤ V.card := by
  classical
  have hsub : anc V R n ⊆ V.erase n := by
    intro q hq
    obtain ⟨hq1, hq2⟩ := Finset.mem_filter.mp hq
    refine Finset.mem_erase.mpr ⟨?_, hq1⟩
    rintro rfl
    exact hac _ hq2
  have := Finset.card_le_card hsub
  rw [Finset.card_erase_of_mem hn] at this
  have := Finset.card_pos.mpr ⟨n, hn⟩
  omega

/-- The end points of all edges are nodes, as `dag` asserts. -/
def InRange (g : Digraph) : Prop := ∀ e, g.elo ≤ e → e ≤ g.ehi →
  (g.nlo ≤ g.src e ∧ g.src e ≤ g.nhi) ∧ (g.nlo ≤ g.dst e ∧ g.dst e ≤ g.nhi)

theorem dag_iff (g : Digraph) (hg : InRange g) (ns es : Int → Prop) :
    fznDag g ns es ↔ Acyclic g (selected g.elo g.ehi es) ∧
      ∀ e ∈ selected g.elo g.ehi es, g.dst e ∈ selected g.nlo g.nhi ns := by
  classical
  constructor
  · rintro ⟨dist, hdom, hn0, hd, -⟩
    constructor
    · intro n hn
      have key : ∀ a b, Relation.TransGen (Step g (selected g.elo g.ehi es)) a b → dist a < dist b := by
        intro a b hab
        induction hab with
        | single hs =>
          obtain ⟨e, he, rfl, rfl⟩ := hs
          obtain ⟨h1, h2, h3⟩ := mem_selected.mp he
          have := hd e h1 h2 h3
          omega
        | tail _ hs ih =>
          obtain ⟨e, he, rfl, rfl⟩ := hs
          obtain ⟨h1, h2, h3⟩ := mem_selected.mp he
          have := hd e h1 h2 h3
          omega
      exact lt_irrefl _ (key n n hn)
    · intro e he
      obtain ⟨h1, h2, h3⟩ := mem_selected.mp he
      obtain ⟨⟨a1, a2⟩, b1, b2⟩ := hg e h1 h2
      refine mem_selected.mpr ⟨b1, b2, ?_⟩
      by_contra hc
      have := hn0 _ b1 b2 hc
      have := hd e h1 h2 h3
      have := (hdom _ a1 a2).1
      omega
  · rintro ⟨hac, hdst⟩
    set A := selected g.elo g.ehi es with hA
    set V := Finset.Icc g.nlo g.nhi with hV
    have hR : ∀ a b, Step g A a b → a ∈ V := by
      rintro a b ⟨e, he, rfl, rfl⟩
      obtain ⟨h1, h2, -⟩ := mem_selected.mp (hA ▸ he)
      exact Finset.mem_Icc.mpr (hg e h1 h2).1
    have hb := walk_le hR hac
    let P : Int → Nat → Prop := fun n k => ∃ m, Walk (Step g A) m k n
    let L : Int → Nat := fun n => Nat.findGreatest (P n) V.card
    have hP0 : ∀ n, P n 0 := fun n => ⟨n, rfl⟩
    have hPL : ∀ n, P n (L n) := fun n => Nat.findGreatest_spec (Nat.zero_le _) (hP0 n)
    have hPle : ∀ n ∈ V, ∀ k, P n k → k ≤ L n := by
      rintro n hn k ⟨m, hm⟩
      have h1 := hb k m n hm
      have h2 := anc_lt hac hn
      exact Nat.le_findGreatest (by omega) ⟨m, hm⟩
    have hLlt : ∀ n ∈ V, L n + 1 ≤ V.card := by
      intro n hn
      obtain ⟨m, hm⟩ := hPL n
      have h1 := hb _ m n hm
      have h2 := anc_lt hac hn
      omega
    have hedge : ∀ e ∈ A, L (g.src e) + 1 ≤ L (g.dst e) := by
      intro e he
      obtain ⟨h1, h2, -⟩ := mem_selected.mp (hA ▸ he)
      obtain ⟨m, hm⟩ := hPL (g.src e)
      exact hPle _ (Finset.mem_Icc.mpr (hg e h1 h2).2) _ ⟨m, _, hm, e, he, rfl, rfl⟩
    have hpred : ∀ n, L n ≠ 0 → ∃ e ∈ A, g.dst e = n ∧ L n ≤ L (g.src e) + 1 := by
      intro n h0
      obtain ⟨k, hk⟩ := Nat.exists_eq_succ_of_ne_zero h0
      have := hPL n
      rw [hk] at this
      obtain ⟨m, p, hp, e, he, rfl, rfl⟩ := this
      refine ⟨e, he, rfl, ?_⟩
      have := hPle (g.src e) (hR _ _ ⟨e, he, rfl, rfl⟩) k ⟨m, hp⟩
      omega
    refine ⟨fun n => L n, ?_, ?_, ?_, ?_⟩
    · intro n h1 h2
      have := hLlt n (Finset.mem_Icc.mpr ⟨h1, h2⟩)
      have hVc : (Finset.Icc g.nlo g.nhi).card = V.card := by rw [hV]
      dsimp only
      rw [hVc]
      omega
    · intro n h1 h2 h3
      by_contra hc
      dsimp only at hc
      obtain ⟨e, he, hd, -⟩ := hpred n (by omega)
      have := hdst e he
      rw [hd] at this
      exact h3 (mem_selected.mp this).2.2
    · intro e h1 h2 h3
      have := hedge e (hA ▸ mem_selected.mpr ⟨h1, h2, h3⟩)
      dsimp only
      omega
    · intro n h1 h2
      apply le_antisymm
      · rw [Finset.le_fold_max]
        by_cases h0 : L n = 0
        · left; simp [h0]
        · right
          obtain ⟨e, he, hd, hle⟩ := hpred n h0
          obtain ⟨e1, e2, e3⟩ := mem_selected.mp (hA ▸ he)
          refine ⟨e, Finset.mem_filter.mpr ⟨Finset.mem_Icc.mpr ⟨e1, e2⟩, hd⟩, ?_⟩
          rw [b2i_true e3]
          dsimp only
          omega
      · rw [Finset.fold_max_le]
        refine ⟨by dsimp only; omega, fun e he => ?_⟩
        obtain ⟨he, hd⟩ := Finset.mem_filter.mp he
        obtain ⟨e1, e2⟩ := Finset.mem_Icc.mp he
        by_cases h3 : es e
        · rw [b2i_true h3]
          have := hedge e (hA ▸ mem_selected.mpr ⟨e1, e2, h3⟩)
          rw [hd] at this
          dsimp only
          omega
        · rw [b2i_false h3]
          dsimp only
          omega

end MZ.Graph
