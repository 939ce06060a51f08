import Verif.Graph.Model
import Mathlib.Data.Finset.Max
import Mathlib.Data.Int.Range

/-! # Distances and reachability -/

namespace MZ.Graph
open MZ.Globals MZ.Graph.Spec

theorem mem_selected {lo hi : Int} {p : Int → Prop} {i : Int} :
    i ∈ selected lo hi p ↔ lo ≤ i ∧ i ≤ hi ∧ p i := by
  unfold selected
  simp [and_assoc]

theorem at_iff {lo hi : Int} {p : Int → Prop} {i : Int} : at_ lo hi p i ↔ i ∈ selected lo hi p := by
  rw [mem_selected]; rfl

theorem cnt_eq (lo hi : Int) (p : Int → Prop) : cnt lo hi p = ((selected lo hi p).card : Int) := by
  classical
  unfold cnt selected
  rw [Finset.card_filter]
  push_cast
  apply Finset.sum_congr rfl
  intro e _
  unfold b2i
  split <;> simp_all

theorem wsum_eq (lo hi : Int) (p : Int → Prop) (w : Int → Int) :
    wsum lo hi p w = ∑ e ∈ selected lo hi p, w e := by
  classical
  unfold wsum selected
  rw [Finset.sum_filter]
  apply Finset.sum_congr rfl
  intro e _
  rw [b2i_mul]

/-- A walk of `k` steps. -/
def Walk (R : Int → Int → Prop) (root : Int) : Nat → Int → Prop
  | 0, n => n = root
  | k + 1, n => ∃ p, Walk R root k p ∧ R p n

theorem walk_of_reach {R : Int → Int → Prop} {root n : Int} (h : Relation.ReflTransGen R root n) :
    ∃ k, Walk R root k n := by
  induction h with
  | refl => exact ⟨0, rfl⟩
  | tail _ hs ih => obtain ⟨k, hk⟩ := ih; exact ⟨k + 1, _, hk, hs⟩

theorem reach_of_walk {R : Int → Int → Prop} {root : Int} : ∀ {k : Nat} {n : Int}, Walk R root k n →
    Relation.ReflTransGen R root n
  | 0, n, h => by cases h; exact .refl
  | _ + 1, _, ⟨_, hp, hs⟩ => (reach_of_walk hp).tail hs

/-- Shortest distances exist, decrease along a parent and are smaller than the number of nodes. -/
theorem bfs {V : Finset Int} {R : Int → Int → Prop} {root : Int} (hroot : root ∈ V)
    (hR : ∀ a b, R a b → a ∈ V ∧ b ∈ V) (hreach : ∀ n ∈ V, Relation.ReflTransGen R root n) :
    ∃ (dist : Int → Nat) (par : Int → Int), dist root = 0 ∧
      (∀ n ∈ V, n ≠ root → R (par n) n ∧ dist n = dist (par n) + 1) ∧ ∀ n ∈ V, dist n + 1 ≤ V.card := by
  classical
  let dist : Int → Nat := fun n => if h : ∃ k, Walk R root k n then Nat.find h else 0
  have hd : ∀ n (h : ∃ k, Walk R root k n), dist n = Nat.find h := fun n h => dif_pos h
  have hw : ∀ n ∈ V, ∃ k, Walk R root k n := fun n hn => walk_of_reach (hreach n hn)
  have hpar : ∀ n ∈ V, n ≠ root → ∃ p, R p n ∧ dist n = dist p + 1 := by
    intro n hn hne
    have hex := hw n hn
    have hs := Nat.find_spec hex
    rw [← hd n hex] at hs
    have hpos : dist n ≠ 0 := by
      intro h0
      rw [h0] at hs
      exact hne hs
    obtain ⟨m, hm⟩ := Nat.exists_eq_succ_of_ne_zero hpos
    rw [hm] at hs
    obtain ⟨p, hp, hpn⟩ := hs
    refine ⟨p, hpn, ?_⟩
    have hexp : ∃ k, Walk R root k p := ⟨m, hp⟩
    have h1 : dist p ≤ m := by rw [hd p hexp]; exact Nat.find_min' hexp hp
    have h2 : dist n ≤ dist p + 1 := by
      rw [hd n hex]
      refine Nat.find_min' hex ⟨p, ?_, hpn⟩
      rw [hd p hexp]
      exact Nat.find_spec hexp
    omega
  have hlev : ∀ k : Nat, ∀ n ∈ V, dist n = k → ∀ j ≤ k, ∃ m ∈ V, dist m = j := by
    intro k
    induction k with
    | zero => intro n hn hk j hj; exact ⟨n, hn, by omega⟩
    | succ k ih =>
      intro n hn hk j hj
      by_cases hjk : j = k + 1
      · exact ⟨n, hn, by omega⟩
      · have hne : n ≠ root := by
          intro h
          have : dist n = 0 := by
            have hex : ∃ k, Walk R root k n := ⟨0, h⟩
            rw [hd n hex]
            exact Nat.le_zero.mp (Nat.find_min' hex h)
          omega
        obtain ⟨p, hp, hdp⟩ := hpar n hn hne
        exact ih p (hR _ _ hp).1 (by omega) j (by omega)
  refine ⟨dist, fun n => if h : ∃ p, R p n ∧ dist n = dist p + 1 then h.choose else n, ?_, ?_, ?_⟩
  · have hex : ∃ k, Walk R root k root := ⟨0, rfl⟩
    rw [hd root hex]
    exact Nat.le_zero.mp (Nat.find_min' hex rfl)
  · intro n hn hne
    have h := hpar n hn hne
    dsimp only
    rw [dif_pos h]
    exact h.choose_spec
  · intro n hn
    have hsub : Finset.range (dist n + 1) ⊆ V.image dist := by
      intro j hj
      rw [Finset.mem_range] at hj
      obtain ⟨m, hm, hmj⟩ := hlev _ n hn rfl j (by omega)
      exact Finset.mem_image.mpr ⟨m, hm, hmj⟩
    have := Finset.card_le_card hsub
    rw [Finset.card_range] at this
    exact this.trans Finset.card_image_le

theorem reach_of_parents {V : Finset Int} {R : Int → Int → Prop} {root : Int} {dist parent : Int → Int}
    (hnn : ∀ n ∈ V, 0 ≤ dist n)
    (hpar : ∀ n ∈ V, n ≠ root → parent n ∈ V ∧ R (parent n) n ∧ dist n = dist (parent n) + 1) :
    ∀ n ∈ V, Relation.ReflTransGen R root n := by
  have key : ∀ k : Nat, ∀ n ∈ V, dist n = k → Relation.ReflTransGen R root n := by
    intro k
    induction k with
    | zero =>
      intro n hn h0
      by_cases hne : n = root
      · subst hne; exact .refl
      · obtain ⟨h1, -, h3⟩ := hpar n hn hne
        have := hnn _ h1
        omega
    | succ k ih =>
      intro n hn hk
      by_cases hne : n = root
      · subst hne; exact .refl
      · obtain ⟨h1, h2, h3⟩ := hpar n hn hne
        exact (ih _ h1 (by omega)).tail h2
  intro n hn
  have h0 := hnn n hn
  exact key (dist n).toNat n hn (by omega)

theorem card_selected_le {N : Int} (ns : Int → Prop) (lo hi : Int) :
    (selected lo hi ns).card ≤ (Finset.Icc lo hi).card := by
  classical
  unfold selected
  exact Finset.card_filter_le _ _

theorem subgraphInt_iff (N E : Int) (src dst : Int → Int) (ns es : Int → Prop) :
    fznSubgraphInt N E src dst ns es ↔
      Subgraph ⟨1, N, 1, E, src, dst⟩ (selected 1 N ns) (selected 1 E es) := by
  constructor
  · intro h e he
    obtain ⟨h1, h2, h3⟩ := mem_selected.mp he
    exact ⟨at_iff.mp ((h e h1 h2).1 h3), at_iff.mp ((h e h1 h2).2 h3)⟩
  · intro h e h1 h2
    exact ⟨fun h3 => at_iff.mpr (h e (mem_selected.mpr ⟨h1, h2, h3⟩)).1,
      fun h3 => at_iff.mpr (h e (mem_selected.mpr ⟨h1, h2, h3⟩)).2⟩

theorem subgraphEnum_iff (g : Digraph) (ns es : Int → Prop) :
    fznSubgraphEnum g ns es ↔ Subgraph g (selected g.nlo g.nhi ns) (selected g.elo g.ehi es) := by
  constructor
  · intro h e he
    obtain ⟨h1, h2, h3⟩ := mem_selected.mp he
    exact ⟨at_iff.mp ((h e h1 h2).1 h3), at_iff.mp ((h e h1 h2).2 h3)⟩
  · intro h e h1 h2
    exact ⟨fun h3 => at_iff.mpr (h e (mem_selected.mpr ⟨h1, h2, h3⟩)).1,
      fun h3 => at_iff.mpr (h e (mem_selected.mpr ⟨h1, h2, h3⟩)).2⟩

theorem step_mem {g : Digraph} {V A : Finset Int} (h : Subgraph g V A) (a b : Int) (hs : Step g A a b) :
    a ∈ V ∧ b ∈ V := by
  obtain ⟨e, he, rfl, rfl⟩ := hs
  exact h e he

/-- Exactly one edge into every node but the root, none into the root: one edge less than nodes. -/
theorem card_of_dtree {g : Digraph} {root : Int} {V A : Finset Int} (h : DTree g root V A) :
    A.card + 1 = V.card := by
  classical
  obtain ⟨⟨hroot, hsub, -⟩, hr, hu⟩ := h
  have : A.card = (V.erase root).card := by
    apply Finset.card_bij (fun e _ => g.dst e)
    · intro e he
      exact Finset.mem_erase.mpr ⟨hr e he, (hsub e he).2⟩
    · intro e he e' he' heq
      exact (hu _ (hsub e he).2 (hr e he)).unique ⟨he, rfl⟩ ⟨he', heq.symm⟩
    · intro n hn
      obtain ⟨hne, hn⟩ := Finset.mem_erase.mp hn
      obtain ⟨e, ⟨he, hd⟩, -⟩ := hu n hn hne
      exact ⟨e, he, hd⟩
  rw [this, Finset.card_erase_of_mem hroot]
  have := Finset.card_pos.mpr ⟨root, hroot⟩
  omega

/-- Conversely the number of edges leaves no room for a second edge into a node or for one into the root. -/
theorem indegree_of_card {g : Digraph} {root : Int} {V A : Finset Int} (hroot : root ∈ V)
    (hin : ∀ n ∈ V, n ≠ root → ∃ e ∈ A, g.dst e = n) (hc : A.card + 1 = V.card) :
    (∀ e ∈ A, g.dst e ≠ root) ∧ ∀ n ∈ V, n ≠ root → ∃! e, e ∈ A ∧ g.dst e = n := by
  classical
  choose! f hf using fun n (h : n ∈ V ∧ n ≠ root) => hin n h.1 h.2
  have hinj : Set.InjOn f (V.erase root) := by
    intro a ha b hb hab
    obtain ⟨ha1, ha2⟩ := Finset.mem_erase.mp (Finset.mem_coe.mp ha)
    obtain ⟨hb1, hb2⟩ := Finset.mem_erase.mp (Finset.mem_coe.mp hb)
    rw [← (hf a ⟨ha2, ha1⟩).2, hab, (hf b ⟨hb2, hb1⟩).2]
  have hsub : (V.erase root).image f ⊆ A := by
    intro e he
    obtain ⟨n, hn, rfl⟩ := Finset.mem_image.mp he
    obtain ⟨h1, h2⟩ := Finset.mem_erase.mp hn
    exact (hf n ⟨h2, h1⟩).1
  have heq : (V.erase root).image f = A := by
    apply Finset.eq_of_subset_of_card_le hsub
    rw [Finset.card_image_of_injOn hinj, Finset.card_erase_of_mem hroot]
    omega
  have hall : ∀ e ∈ A, g.dst e ∈ V ∧ g.dst e ≠ root ∧ e = f (g.dst e) := by
    intro e he
    rw [← heq] at he
    obtain ⟨n, hn, rfl⟩ := Finset.mem_image.mp he
    obtain ⟨h1, h2⟩ := Finset.mem_erase.mp hn
    have := (hf n ⟨h2, h1⟩).2
    rw [this]
    exact ⟨h2, h1, rfl⟩
  refine ⟨fun e he => (hall e he).2.1, fun n hn hne => ⟨f n, hf n ⟨hn, hne⟩, ?_⟩⟩
  rintro e ⟨he, hd⟩
  rw [(hall e he).2.2, hd]

/-- The distance and parent arrays that the solver can choose. -/
theorem witnesses {g : Digraph} {root : Int} {V A : Finset Int} (h : DReachable g root V A) :
    ∃ (dist : Int → Nat) (par : Int → Int), dist root = 0 ∧
      (∀ n ∈ V, n ≠ root → Step g A (par n) n ∧ par n ∈ V ∧ par n ≠ n ∧ dist n = dist (par n) + 1) ∧
      ∀ n ∈ V, dist n + 1 ≤ V.card := by
  obtain ⟨hroot, hsub, hreach⟩ := h
  obtain ⟨dist, par, h1, h2, h3⟩ := bfs hroot (fun a b => step_mem hsub a b) hreach
  refine ⟨dist, par, h1, fun n hn hne => ?_, h3⟩
  obtain ⟨ha, hb⟩ := h2 n hn hne
  refine ⟨ha, (step_mem hsub _ _ ha).1, fun hc => ?_, hb⟩
  rw [hc] at hb
  omega

theorem dreachableInt_iff (N E : Int) (src dst : Int → Int) (root : Int) (ns es : Int → Prop) :
    fznDreachableInt N E src dst root ns es ↔
      DReachable ⟨1, N, 1, E, src, dst⟩ root (selected 1 N ns) (selected 1 E es) := by
  classical
  constructor
  · rintro ⟨dist, parent, hdom, hroot, -, -, -, hin, hpn, hpd, hpe, hsub⟩
    refine ⟨at_iff.mp hroot, (subgraphInt_iff ..).mp hsub, ?_⟩
    apply reach_of_parents (dist := dist) (parent := parent)
    · intro n hn
      obtain ⟨h1, h2, -⟩ := mem_selected.mp hn
      exact (hdom n h1 h2).1.1
    · intro n hn hne
      obtain ⟨h1, h2, h3⟩ := mem_selected.mp hn
      have hp := (hin n h1 h2 h3).resolve_left hne
      obtain ⟨e, he1, he2, he3, he4, he5⟩ := hpe n h1 h2 hp
      exact ⟨at_iff.mp (hpn n h1 h2 hp).2, ⟨e, mem_selected.mpr ⟨he1, he2, he3⟩, he4, he5⟩,
        (hpd n h1 h2 hp).2.2⟩
  · intro h
    obtain ⟨dist, par, h0, hp, hb⟩ := witnesses h
    obtain ⟨hroot, hsub, -⟩ := h
    have hcard : ((selected 1 N ns).card : Int) ≤ N := by
      have h1 := card_selected_le (N := N) ns 1 N
      have h2 := mem_selected.mp hroot
      rw [Int.card_Icc] at h1
      omega
    set V := selected 1 N ns with hV
    have hVm : ∀ n, n ∈ V ↔ 1 ≤ n ∧ n ≤ N ∧ ns n := fun n => by rw [hV]; exact mem_selected
    refine ⟨fun n => if n ∈ V then dist n else 0, fun n => if n ∈ V ∧ n ≠ root then par n else 0,
      ?_, at_iff.mpr hroot, ⟨((hVm _).mp hroot).1, ((hVm _).mp hroot).2.1, by simp [h0]⟩, ?_, ?_, ?_, ?_, ?_, ?_,
      (subgraphInt_iff ..).mpr hsub⟩
    · intro n h1 h2
      dsimp only
      constructor
      · by_cases hn : n ∈ V
        · rw [if_pos hn]
          have := hb n hn
          omega
        · rw [if_neg hn]; omega
      · by_cases hn : n ∈ V ∧ n ≠ root
        · rw [if_pos hn]
          have := (hVm _).mp (hp n hn.1 hn.2).2.1
          omega
        · rw [if_neg hn]; omega
    · intro n h1 h2 h3
      exact if_neg fun hc => h3 ((hVm _).mp hc.1).2.2
    · intro n h1 h2 h3
      exact if_neg fun hc => h3 ((hVm _).mp hc).2.2
    · intro n h1 h2 h3
      have hn : n ∈ V := (hVm _).mpr ⟨h1, h2, h3⟩
      by_cases hne : n = root
      · exact .inl hne
      · right
        dsimp only
        rw [if_pos ⟨hn, hne⟩]
        have := (hVm _).mp (hp n hn hne).2.1
        omega
    · intro n h1 h2 h3
      dsimp only at h3
      split at h3
      · rename_i hn
        exact ⟨((hVm _).mp hn.1).2.2, by dsimp only; rw [if_pos hn]; exact at_iff.mpr (hp n hn.1 hn.2).2.1⟩
      · omega
    · intro n h1 h2 h3
      dsimp only at h3 ⊢
      split at h3
      · rename_i hn
        rw [if_pos hn]
        have hpp := hp n hn.1 hn.2
        obtain ⟨ha, hb', -⟩ := (hVm _).mp hpp.2.1
        refine ⟨ha, hb', ?_⟩
        dsimp only
        rw [if_pos hn.1, if_pos hpp.2.1, hpp.2.2.2]
        push_cast
        rfl
      · omega
    · intro n h1 h2 h3
      dsimp only at h3 ⊢
      split at h3
      · rename_i hn
        rw [if_pos hn]
        obtain ⟨e, he, hs, hd⟩ := (hp n hn.1 hn.2).1
        obtain ⟨he1, he2, he3⟩ := mem_selected.mp he
        exact ⟨e, he1, he2, he3, hs, hd⟩
      · omega

theorem dreachableEnum_iff (g : Digraph) (root : Int) (ns es : Int → Prop) :
    fznDreachableEnum g root ns es ↔
      DReachable g root (selected g.nlo g.nhi ns) (selected g.elo g.ehi es) := by
  classical
  constructor
  · rintro ⟨dist, parent, hdom, hroot, -, -, -, -, hin, hpn, hpd, hpe, hsub⟩
    refine ⟨at_iff.mp hroot, (subgraphEnum_iff ..).mp hsub, ?_⟩
    apply reach_of_parents (dist := dist) (parent := parent)
    · intro n hn
      obtain ⟨h1, h2, -⟩ := mem_selected.mp hn
      exact (hdom n h1 h2).1.1
    · intro n hn hne
      obtain ⟨h1, h2, h3⟩ := mem_selected.mp hn
      have hp := (hin n h1 h2 h3).resolve_left hne
      obtain ⟨e, he1, he2, he3, he4, he5⟩ := hpe n h1 h2 hp
      exact ⟨at_iff.mp (hpn n h1 h2 hp).2, ⟨e, mem_selected.mpr ⟨he1, he2, he4⟩, he5, he3⟩,
        (hpd n h1 h2 hp).2.2⟩
  · intro h
    obtain ⟨dist, par, h0, hp, hb⟩ := witnesses h
    obtain ⟨hroot, hsub, -⟩ := h
    have hcard := card_selected_le (N := 0) ns g.nlo g.nhi
    set V := selected g.nlo g.nhi ns with hV
    have hVm : ∀ n, n ∈ V ↔ g.nlo ≤ n ∧ n ≤ g.nhi ∧ ns n := fun n => by rw [hV]; exact mem_selected
    obtain ⟨hr1, hr2, hr3⟩ := (hVm _).mp hroot
    have hpos := Finset.card_pos.mpr ⟨root, hroot⟩
    refine ⟨fun n => if n ∈ V then dist n else 0, fun n => if n ∈ V ∧ n ≠ root then par n else n,
      ?_, at_iff.mpr hroot, ⟨hr1, hr2, by simp [h0]⟩, ⟨hr1, hr2, by simp⟩, ?_, ?_, ?_, ?_, ?_, ?_,
      (subgraphEnum_iff ..).mpr hsub⟩
    · intro n h1 h2
      dsimp only
      constructor
      · by_cases hn : n ∈ V
        · rw [if_pos hn]
          have := hb n hn
          omega
        · rw [if_neg hn]; omega
      · by_cases hn : n ∈ V ∧ n ≠ root
        · rw [if_pos hn]
          have := (hVm _).mp (hp n hn.1 hn.2).2.1
          omega
        · rw [if_neg hn]; omega
    · intro n h1 h2 h3
      exact if_neg fun hc => h3 ((hVm _).mp hc.1).2.2
    · intro n h1 h2 h3
      exact if_neg fun hc => h3 ((hVm _).mp hc).2.2
    · intro n h1 h2 h3
      have hn : n ∈ V := (hVm _).mpr ⟨h1, h2, h3⟩
      by_cases hne : n = root
      · exact .inl hne
      · right
        dsimp only
        rw [if_pos ⟨hn, hne⟩]
        exact (hp n hn hne).2.2.1
    · intro n h1 h2 h3
      dsimp only at h3
      split at h3
      · rename_i hn
        exact ⟨((hVm _).mp hn.1).2.2, by dsimp only; rw [if_pos hn]; exact at_iff.mpr (hp n hn.1 hn.2).2.1⟩
      · exact absurd rfl h3
    · intro n h1 h2 h3
      dsimp only at h3 ⊢
      split at h3
      · rename_i hn
        rw [if_pos hn]
        have hpp := hp n hn.1 hn.2
        obtain ⟨ha, hb', -⟩ := (hVm _).mp hpp.2.1
        refine ⟨ha, hb', ?_⟩
        dsimp only
        rw [if_pos hn.1, if_pos hpp.2.1, hpp.2.2.2]
        push_cast
        rfl
      · exact absurd rfl h3
    · intro n h1 h2 h3
      dsimp only at h3 ⊢
      split at h3
      · rename_i hn
        rw [if_pos hn]
        obtain ⟨e, he, hs, hd⟩ := (hp n hn.1 hn.2).1
        obtain ⟨he1, he2, he3⟩ := mem_selected.mp he
        exact ⟨e, he1, he2, hd, he3, hs⟩
      · exact absurd rfl h3

end MZ.Graph
