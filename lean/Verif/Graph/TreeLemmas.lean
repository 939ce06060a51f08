import Verif.Graph.Reach

/-! # Trees -/

namespace MZ.Graph
open MZ.Globals MZ.Graph.Spec

theorem dtreeInt_iff (N E : Int) (src dst : Int → Int) (root : Int) (ns es : Int → Prop) :
    fznDtreeInt N E src dst root ns es ↔
      DTree ⟨1, N, 1, E, src, dst⟩ root (selected 1 N ns) (selected 1 E es) := by
  constructor
  · rintro ⟨dist, parent, hdom, hroot, hd0, hn0, hnd, hin, hpn, hpd, hpe, hep, hc, hsub⟩
    have hR : DReachable ⟨1, N, 1, E, src, dst⟩ root (selected 1 N ns) (selected 1 E es) :=
      (dreachableInt_iff ..).mp ⟨dist, parent, hdom, hroot, hd0,
        fun n h1 h2 h3 => le_antisymm (hn0 n h1 h2 h3) (hdom n h1 h2).2.1, hnd, hin, hpn, hpd, hpe, hsub⟩
    rw [cnt_eq, cnt_eq] at hc
    refine ⟨hR, indegree_of_card hR.1 ?_ (by omega)⟩
    intro n hn hne
    obtain ⟨h1, h2, h3⟩ := mem_selected.mp hn
    have hp := (hin n h1 h2 h3).resolve_left hne
    obtain ⟨e, he1, he2, he3, he4, he5⟩ := hpe n h1 h2 hp
    exact ⟨e, mem_selected.mpr ⟨he1, he2, he3⟩, he5⟩
  · intro h
    have hc := card_of_dtree h
    obtain ⟨hR, hr, hu⟩ := h
    obtain ⟨dist, parent, hdom, hroot, hd0, hn0, hnd, hin, hpn, hpd, hpe, hsub⟩ := (dreachableInt_iff ..).mpr hR
    refine ⟨dist, parent, hdom, hroot, hd0, fun n h1 h2 h3 => (hn0 n h1 h2 h3).le, hnd, hin, hpn, hpd, hpe, ?_, ?_,
      hsub⟩
    · intro e h1 h2 h3
      have he : e ∈ selected 1 E es := mem_selected.mpr ⟨h1, h2, h3⟩
      have hn := (hR.2.1 e he).2
      obtain ⟨a1, a2, a3⟩ := mem_selected.mp hn
      refine ⟨a1, a2, ?_⟩
      have hp := (hin _ a1 a2 a3).resolve_left (hr e he)
      obtain ⟨e', he1, he2, he3, he4, he5⟩ := hpe _ a1 a2 hp
      have := (hu _ hn (hr e he)).unique ⟨he, rfl⟩ ⟨mem_selected.mpr ⟨he1, he2, he3⟩, he5⟩
      subst this
      exact he4.symm
    · rw [cnt_eq, cnt_eq]
      omega

theorem dtreeEnum_iff (g : Digraph) (root : Int) (ns es : Int → Prop) :
    fznDtreeEnum g root ns es ↔
      DTree g root (selected g.nlo g.nhi ns) (selected g.elo g.ehi es) := by
  constructor
  · rintro ⟨dist, parent, hdom, hroot, hd0, hpr, hn0, hnd, hin, hpn, hpd, hpe, hep, hc, hsub⟩
    have hR : DReachable g root (selected g.nlo g.nhi ns) (selected g.elo g.ehi es) :=
      (dreachableEnum_iff ..).mp ⟨dist, parent, hdom, hroot, hd0, hpr, hn0, hnd, hin, hpn, hpd, hpe, hsub⟩
    rw [cnt_eq, cnt_eq] at hc
    refine ⟨hR, indegree_of_card hR.1 ?_ (by omega)⟩
    intro n hn hne
    obtain ⟨h1, h2, h3⟩ := mem_selected.mp hn
    have hp := (hin n h1 h2 h3).resolve_left hne
    obtain ⟨e, he1, he2, he3, he4, he5⟩ := hpe n h1 h2 hp
    exact ⟨e, mem_selected.mpr ⟨he1, he2, he4⟩, he3⟩
  · intro h
    have hc := card_of_dtree h
    obtain ⟨hR, hr, hu⟩ := h
    obtain ⟨dist, parent, hdom, hroot, hd0, hpr, hn0, hnd, hin, hpn, hpd, hpe, hsub⟩ :=
      (dreachableEnum_iff ..).mpr hR
    refine ⟨dist, parent, hdom, hroot, hd0, hpr, hn0, hnd, hin, hpn, hpd, hpe, ?_, ?_, hsub⟩
    · intro e h1 h2 h3
      have he : e ∈ selected g.elo g.ehi es := mem_selected.mpr ⟨h1, h2, h3⟩
      have hn := (hR.2.1 e he).2
      obtain ⟨a1, a2, a3⟩ := mem_selected.mp hn
      refine ⟨a1, a2, ?_⟩
      have hp := (hin _ a1 a2 a3).resolve_left (hr e he)
      obtain ⟨e', he1, he2, he3, he4, he5⟩ := hpe _ a1 a2 hp
      have := (hu _ hn (hr e he)).unique ⟨he, rfl⟩ ⟨mem_selected.mpr ⟨he1, he2, he4⟩, he3⟩
      subst this
      exact he5.symm
    · rw [cnt_eq, cnt_eq]
      omega

/-! ## Both directions -/

/-- `both` for the numbered versions. -/
theorem both_int (N E : Int) (hE : 0 ≤ E) (src dst : Int → Int) :
    both ⟨1, N, 1, E, src, dst⟩ = ⟨1, N, 1, 2 * E, app 1 E src dst, app 1 E dst src⟩ := by
  have : edges ⟨1, N, 1, E, src, dst⟩ = E := by
    unfold edges
    dsimp only
    rw [Int.card_Icc]
    omega
  unfold both
  rw [this]

theorem edges_nonneg (g : Digraph) : 0 ≤ edges g := by unfold edges; omega

theorem edges_eq (g : Digraph) : edges g = max 0 (g.ehi - g.elo + 1) := by
  unfold edges
  rw [Int.card_Icc]
  omega

/-- Which edge of the original graph an edge of the doubled one comes from, and in which direction. -/
theorem both_edge (g : Digraph) (k : Int) (h1 : 1 ≤ k) (h2 : k ≤ 2 * edges g) :
    ∃ e, g.elo ≤ e ∧ e ≤ g.ehi ∧
      ((k ≤ edges g ∧ k = e - g.elo + 1 ∧ (both g).src k = g.src e ∧ (both g).dst k = g.dst e) ∨
        (¬ k ≤ edges g ∧ k = e - g.elo + 1 + edges g ∧ (both g).src k = g.dst e ∧ (both g).dst k = g.src e)) := by
  have hE := edges_eq g
  by_cases hk : k ≤ edges g
  · refine ⟨g.elo + k - 1, by omega, by omega, .inl ⟨hk, by omega, ?_, ?_⟩⟩ <;>
    · dsimp only [both, app]
      rw [if_pos hk]
  · refine ⟨g.elo + k - edges g - 1, by omega, by omega, .inr ⟨hk, by omega, ?_, ?_⟩⟩ <;>
    · dsimp only [both, app]
      rw [if_neg hk]

theorem both_fst (g : Digraph) (e : Int) (h1 : g.elo ≤ e) (h2 : e ≤ g.ehi) :
    (1 ≤ e - g.elo + 1 ∧ e - g.elo + 1 ≤ 2 * edges g) ∧ (both g).src (e - g.elo + 1) = g.src e ∧
      (both g).dst (e - g.elo + 1) = g.dst e := by
  have hE := edges_eq g
  refine ⟨by omega, ?_, ?_⟩ <;>
  · dsimp only [both, app]
    rw [if_pos (by omega)]
    congr 1
    omega

theorem both_snd (g : Digraph) (e : Int) (h1 : g.elo ≤ e) (h2 : e ≤ g.ehi) :
    (1 ≤ e - g.elo + 1 + edges g ∧ e - g.elo + 1 + edges g ≤ 2 * edges g) ∧
      (both g).src (e - g.elo + 1 + edges g) = g.dst e ∧ (both g).dst (e - g.elo + 1 + edges g) = g.src e := by
  have hE := edges_eq g
  refine ⟨by omega, ?_, ?_⟩ <;>
  · dsimp only [both, app]
    rw [if_neg (by omega)]
    congr 1
    omega

/-- The selected directed edges agree with the selected undirected edges (`fzn_tree_enum.mzn` 14). -/
def Agree (g : Digraph) (es des : Int → Prop) : Prop :=
  ∀ e, 1 ≤ e → e ≤ edges g → (es (e - 1 + g.elo) ↔ des e ∨ des (e + edges g))

theorem agree_iff {g : Digraph} {es des : Int → Prop} (h : Agree g es des) (e : Int) (h1 : g.elo ≤ e)
    (h2 : e ≤ g.ehi) : es e ↔ des (e - g.elo + 1) ∨ des (e - g.elo + 1 + edges g) := by
  have hE := edges_eq g
  have := h (e - g.elo + 1) (by omega) (by omega)
  rw [show e - g.elo + 1 - 1 + g.elo = e by omega] at this
  exact this

theorem agree_app (g : Digraph) (es : Int → Prop) : Agree g es (app g.elo (edges g) es es) := by
  intro e h1 h2
  unfold app
  rw [if_pos h2, if_neg (by omega), show g.elo + e - 1 = e - 1 + g.elo by omega,
    show g.elo + (e + edges g) - edges g - 1 = e - 1 + g.elo by omega, or_self]

theorem link_of_both {g : Digraph} {es des : Int → Prop} (h : Agree g es des) {a b : Int}
    (hs : Step (both g) (selected 1 (2 * edges g) des) a b) : Link g (selected g.elo g.ehi es) a b := by
  obtain ⟨k, hk, ha, hb⟩ := hs
  obtain ⟨k1, k2, k3⟩ := mem_selected.mp hk
  obtain ⟨e, e1, e2, (⟨-, hke, h5, h6⟩ | ⟨-, hke, h5, h6⟩)⟩ := both_edge g k k1 k2
  · refine .inl ⟨e, mem_selected.mpr ⟨e1, e2, (agree_iff h e e1 e2).mpr (.inl (hke ▸ k3))⟩, ?_, ?_⟩
    · rw [← h5, ha]
    · rw [← h6, hb]
  · refine .inr ⟨e, mem_selected.mpr ⟨e1, e2, (agree_iff h e e1 e2).mpr (.inr (hke ▸ k3))⟩, ?_, ?_⟩
    · rw [← h6, hb]
    · rw [← h5, ha]

theorem subgraph_both {g : Digraph} {V : Finset Int} {es des : Int → Prop} (h : Agree g es des) :
    Subgraph (both g) V (selected 1 (2 * edges g) des) ↔ Subgraph g V (selected g.elo g.ehi es) := by
  constructor
  · intro hs e he
    obtain ⟨e1, e2, e3⟩ := mem_selected.mp he
    rcases (agree_iff h e e1 e2).mp e3 with hd | hd
    · obtain ⟨⟨k1, k2⟩, h3, h4⟩ := both_fst g e e1 e2
      have := hs _ (mem_selected.mpr ⟨k1, k2, hd⟩)
      rw [h3, h4] at this
      exact this
    · obtain ⟨⟨k1, k2⟩, h3, h4⟩ := both_snd g e e1 e2
      have := hs _ (mem_selected.mpr ⟨k1, k2, hd⟩)
      rw [h3, h4] at this
      exact this.symm
  · intro hs k hk
    obtain ⟨k1, k2, k3⟩ := mem_selected.mp hk
    obtain ⟨e, e1, e2, (⟨-, hke, h5, h6⟩ | ⟨-, hke, h5, h6⟩)⟩ := both_edge g k k1 k2
    · rw [h5, h6]
      exact hs e (mem_selected.mpr ⟨e1, e2, (agree_iff h e e1 e2).mpr (.inl (hke ▸ k3))⟩)
    · rw [h5, h6]
      exact (hs e (mem_selected.mpr ⟨e1, e2, (agree_iff h e e1 e2).mpr (.inr (hke ▸ k3))⟩)).symm

theorem reach_mono {R S : Int → Int → Prop} (h : ∀ a b, R a b → S a b) {a b : Int}
    (hr : Relation.ReflTransGen R a b) : Relation.ReflTransGen S a b := Relation.ReflTransGen.mono h _ _ hr

theorem reachable_both (g : Digraph) (root : Int) (V : Finset Int) (es : Int → Prop) :
    DReachable (both g) root V (selected 1 (2 * edges g) (app g.elo (edges g) es es)) ↔
      Reachable g root V (selected g.elo g.ehi es) := by
  have hA := agree_app g es
  unfold DReachable Reachable
  rw [subgraph_both hA]
  refine and_congr_right fun _ => and_congr_right fun _ => forall_congr' fun n => imp_congr_right fun _ => ?_
  refine ⟨reach_mono fun a b => link_of_both hA, reach_mono fun a b hl => ?_⟩
  rcases hl with ⟨e, he, rfl, rfl⟩ | ⟨e, he, rfl, rfl⟩
  · obtain ⟨e1, e2, e3⟩ := mem_selected.mp he
    obtain ⟨⟨k1, k2⟩, h3, h4⟩ := both_fst g e e1 e2
    refine ⟨e - g.elo + 1, mem_selected.mpr ⟨k1, k2, ?_⟩, h3, h4⟩
    unfold app
    rw [edges_eq]
    rw [if_pos (by omega), show g.elo + (e - g.elo + 1) - 1 = e by omega]
    exact e3
  · obtain ⟨e1, e2, e3⟩ := mem_selected.mp he
    obtain ⟨⟨k1, k2⟩, h3, h4⟩ := both_snd g e e1 e2
    refine ⟨e - g.elo + 1 + edges g, mem_selected.mpr ⟨k1, k2, ?_⟩, h3, h4⟩
    unfold app
    rw [if_neg (by omega), show g.elo + (e - g.elo + 1 + edges g) - edges g - 1 = e by omega]
    exact e3

/-- A directed tree on the doubled edges is an undirected tree. -/
theorem tree_of_both {g : Digraph} {root : Int} {V : Finset Int} {es des : Int → Prop} (h : Agree g es des)
    (ht : DTree (both g) root V (selected 1 (2 * edges g) des)) : Tree g root V (selected g.elo g.ehi es) := by
  have hc := card_of_dtree ht
  obtain ⟨dist, par, h0, hp, -⟩ := witnesses ht.1
  obtain ⟨⟨hroot, hsub, hreach⟩, hr, hu⟩ := ht
  refine ⟨⟨hroot, (subgraph_both h).mp hsub, fun n hn => reach_mono (fun a b => link_of_both h) (hreach n hn)⟩, ?_⟩
  rw [← hc]
  congr 1
  -- distances increase along every selected directed edge
  have hinc : ∀ k ∈ selected 1 (2 * edges g) des, dist ((both g).dst k) = dist ((both g).src k) + 1 := by
    intro k hk
    have hn := (hsub k hk).2
    obtain ⟨⟨k', hk', hs, hd⟩, -, -, hdist⟩ := hp _ hn (hr k hk)
    have := (hu _ hn (hr k hk)).unique ⟨hk, rfl⟩ ⟨hk', hd⟩
    subst this
    rw [hdist, hs]
  symm
  apply Finset.card_bij (fun k _ => if k ≤ edges g then k - 1 + g.elo else k - edges g - 1 + g.elo)
  · intro k hk
    obtain ⟨k1, k2, k3⟩ := mem_selected.mp hk
    obtain ⟨e, e1, e2, (⟨hkl, hke, h5, h6⟩ | ⟨hkl, hke, h5, h6⟩)⟩ := both_edge g k k1 k2
    · rw [if_pos hkl, show k - 1 + g.elo = e by omega]
      exact mem_selected.mpr ⟨e1, e2, (agree_iff h e e1 e2).mpr (.inl (hke ▸ k3))⟩
    · rw [if_neg hkl, show k - edges g - 1 + g.elo = e by omega]
      exact mem_selected.mpr ⟨e1, e2, (agree_iff h e e1 e2).mpr (.inr (hke ▸ k3))⟩
  · intro k hk k' hk' heq
    have hi := hinc k hk
    have hi' := hinc k' hk'
    obtain ⟨k1, k2, k3⟩ := mem_selected.mp hk
    obtain ⟨k1', k2', k3'⟩ := mem_selected.mp hk'
    obtain ⟨e, e1, e2, he⟩ := both_edge g k k1 k2
    obtain ⟨e', e1', e2', he'⟩ := both_edge g k' k1' k2'
    rcases he with ⟨hkl, hke, h5, h6⟩ | ⟨hkl, hke, h5, h6⟩ <;>
    rcases he' with ⟨hkl', hke', h5', h6'⟩ | ⟨hkl', hke', h5', h6'⟩
    · rw [if_pos hkl, if_pos hkl'] at heq; omega
    · rw [if_pos hkl, if_neg hkl'] at heq
      have hee : e = e' := by omega
      subst hee
      rw [h5, h6] at hi
      rw [h5', h6'] at hi'
      omega
    · rw [if_neg hkl, if_pos hkl'] at heq
      have hee : e = e' := by omega
      subst hee
      rw [h5, h6] at hi
      rw [h5', h6'] at hi'
      omega
    · rw [if_neg hkl, if_neg hkl'] at heq; omega
  · intro e he
    obtain ⟨e1, e2, e3⟩ := mem_selected.mp he
    have hE := edges_eq g
    rcases (agree_iff h e e1 e2).mp e3 with hd | hd
    · refine ⟨e - g.elo + 1, mem_selected.mpr ⟨by omega, by omega, hd⟩, ?_⟩
      rw [if_pos (by omega)]
      omega
    · refine ⟨e - g.elo + 1 + edges g, mem_selected.mpr ⟨by omega, by omega, hd⟩, ?_⟩
      rw [if_neg (by omega)]
      omega

/-- An undirected tree can be directed away from its root. -/
theorem both_of_tree {g : Digraph} {root : Int} {V : Finset Int} {es : Int → Prop}
    (ht : Tree g root V (selected g.elo g.ehi es)) :
    ∃ des, Agree g es des ∧ DTree (both g) root V (selected 1 (2 * edges g) des) := by
  classical
  obtain ⟨⟨hroot, hsub, hreach⟩, hc⟩ := ht
  have hlink : ∀ a b, Link g (selected g.elo g.ehi es) a b → a ∈ V ∧ b ∈ V := by
    rintro a b (hs | hs)
    · exact step_mem hsub _ _ hs
    · exact (step_mem hsub _ _ hs).symm
  obtain ⟨dist, par, h0, hp, -⟩ := bfs hroot hlink hreach
  have hE := edges_eq g
  -- one directed edge for every node but the root
  have hed : ∀ n, n ∈ V ∧ n ≠ root → ∃ k, (1 ≤ k ∧ k ≤ 2 * edges g) ∧ (both g).src k = par n ∧ (both g).dst k = n ∧
      es (if k ≤ edges g then k - 1 + g.elo else k - edges g - 1 + g.elo) := by
    rintro n ⟨hn, hne⟩
    rcases (hp n hn hne).1 with ⟨e, he, hs, hd⟩ | ⟨e, he, hs, hd⟩
    · obtain ⟨e1, e2, e3⟩ := mem_selected.mp he
      obtain ⟨hk, h3, h4⟩ := both_fst g e e1 e2
      refine ⟨_, hk, h3.trans hs, h4.trans hd, ?_⟩
      rw [if_pos (by omega), show e - g.elo + 1 - 1 + g.elo = e by omega]
      exact e3
    · obtain ⟨e1, e2, e3⟩ := mem_selected.mp he
      obtain ⟨hk, h3, h4⟩ := both_snd g e e1 e2
      refine ⟨_, hk, h3.trans hd, h4.trans hs, ?_⟩
      rw [if_neg (by omega), show e - g.elo + 1 + edges g - edges g - 1 + g.elo = e by omega]
      exact e3
  choose! f hf using hed
  let und : Int → Int := fun k => if k ≤ edges g then k - 1 + g.elo else k - edges g - 1 + g.elo
  have hfu : ∀ n ∈ V.erase root, und (f n) ∈ selected g.elo g.ehi es := by
    intro n hn
    obtain ⟨hne, hn⟩ := Finset.mem_erase.mp hn
    obtain ⟨⟨k1, k2⟩, -, -, h4⟩ := hf n ⟨hn, hne⟩
    refine mem_selected.mpr ⟨?_, ?_, h4⟩ <;>
    · dsimp only [und]
      split <;> omega
  have hinj : Set.InjOn (fun n => und (f n)) (V.erase root) := by
    intro a ha b hb hab
    obtain ⟨ha1, ha2⟩ := Finset.mem_erase.mp (Finset.mem_coe.mp ha)
    obtain ⟨hb1, hb2⟩ := Finset.mem_erase.mp (Finset.mem_coe.mp hb)
    obtain ⟨⟨k1, k2⟩, s1, d1, -⟩ := hf a ⟨ha2, ha1⟩
    obtain ⟨⟨k1', k2'⟩, s2, d2, -⟩ := hf b ⟨hb2, hb1⟩
    have da := (hp a ha2 ha1).2
    have db := (hp b hb2 hb1).2
    dsimp only at hab
    obtain ⟨e, e1, e2, he⟩ := both_edge g _ k1 k2
    obtain ⟨e', e1', e2', he'⟩ := both_edge g _ k1' k2'
    dsimp only [und] at hab
    rcases he with ⟨hkl, hke, h5, h6⟩ | ⟨hkl, hke, h5, h6⟩ <;>
    rcases he' with ⟨hkl', hke', h5', h6'⟩ | ⟨hkl', hke', h5', h6'⟩
    · rw [if_pos hkl, if_pos hkl'] at hab
      have hee : e = e' := by omega
      subst hee
      rw [← d1, ← d2, h6, h6']
    · rw [if_pos hkl, if_neg hkl'] at hab
      have hee : e = e' := by omega
      subst hee
      have x1 : par a = b := by rw [← s1, ← d2, h5, h6']
      have x2 : par b = a := by rw [← s2, ← d1, h5', h6]
      rw [x1] at da
      rw [x2] at db
      omega
    · rw [if_neg hkl, if_pos hkl'] at hab
      have hee : e = e' := by omega
      subst hee
      have x1 : par a = b := by rw [← s1, ← d2, h5, h6']
      have x2 : par b = a := by rw [← s2, ← d1, h5', h6]
      rw [x1] at da
      rw [x2] at db
      omega
    · rw [if_neg hkl, if_neg hkl'] at hab
      have hee : e = e' := by omega
      subst hee
      rw [← d1, ← d2, h6, h6']
  have himg : (V.erase root).image (fun n => und (f n)) = selected g.elo g.ehi es := by
    apply Finset.eq_of_subset_of_card_le
    · intro e he
      obtain ⟨n, hn, rfl⟩ := Finset.mem_image.mp he
      exact hfu n hn
    · rw [Finset.card_image_of_injOn hinj, Finset.card_erase_of_mem hroot]
      omega
  have hmem : ∀ k, k ∈ selected 1 (2 * edges g) (fun k => ∃ n ∈ V.erase root, f n = k) ↔
      ∃ n ∈ V.erase root, f n = k := by
    intro k
    rw [mem_selected]
    refine ⟨fun h => h.2.2, fun h => ?_⟩
    obtain ⟨n, hn, rfl⟩ := id h
    obtain ⟨hne, hn⟩ := Finset.mem_erase.mp hn
    exact ⟨(hf n ⟨hn, hne⟩).1.1, (hf n ⟨hn, hne⟩).1.2, h⟩
  have hagree : Agree g es (fun k => ∃ n ∈ V.erase root, f n = k) := by
    intro e h1 h2
    constructor
    · intro he
      have : e - 1 + g.elo ∈ selected g.elo g.ehi es := mem_selected.mpr ⟨by omega, by omega, he⟩
      rw [← himg] at this
      obtain ⟨n, hn, hne⟩ := Finset.mem_image.mp this
      obtain ⟨hn1, hn2⟩ := Finset.mem_erase.mp hn
      have hr := (hf n ⟨hn2, hn1⟩).1
      dsimp only [und] at hne
      split at hne
      · exact .inl ⟨n, hn, by omega⟩
      · exact .inr ⟨n, hn, by omega⟩
    · rintro (⟨n, hn, hk⟩ | ⟨n, hn, hk⟩)
      · have := (mem_selected.mp (hfu n hn)).2.2
        dsimp only [und] at this
        rw [hk, if_pos h2] at this
        exact this
      · have := (mem_selected.mp (hfu n hn)).2.2
        dsimp only [und] at this
        rw [hk, if_neg (by omega), show e + edges g - edges g - 1 + g.elo = e - 1 + g.elo by omega] at this
        exact this
  refine ⟨_, hagree, ⟨hroot, (subgraph_both hagree).mpr hsub, ?_⟩, ?_, ?_⟩
  · apply reach_of_parents (dist := fun n => dist n) (parent := par)
    · intro n _; omega
    · intro n hn hne
      have hn' : n ∈ V.erase root := Finset.mem_erase.mpr ⟨hne, hn⟩
      refine ⟨(hlink _ _ (hp n hn hne).1).1, ⟨f n, (hmem _).mpr ⟨n, hn', rfl⟩, ?_, ?_⟩, ?_⟩
      · exact (hf n ⟨hn, hne⟩).2.1
      · exact (hf n ⟨hn, hne⟩).2.2.1
      · have := (hp n hn hne).2
        omega
  · intro k hk
    obtain ⟨n, hn, rfl⟩ := (hmem k).mp hk
    obtain ⟨hne, hn⟩ := Finset.mem_erase.mp hn
    rw [(hf n ⟨hn, hne⟩).2.2.1]
    exact hne
  · intro n hn hne
    have hn' : n ∈ V.erase root := Finset.mem_erase.mpr ⟨hne, hn⟩
    refine ⟨f n, ⟨(hmem _).mpr ⟨n, hn', rfl⟩, (hf n ⟨hn, hne⟩).2.2.1⟩, ?_⟩
    rintro k ⟨hk, hd⟩
    obtain ⟨m, hm, rfl⟩ := (hmem k).mp hk
    obtain ⟨hmr, hm⟩ := Finset.mem_erase.mp hm
    rw [(hf m ⟨hm, hmr⟩).2.2.1] at hd
    rw [hd]

end MZ.Graph
