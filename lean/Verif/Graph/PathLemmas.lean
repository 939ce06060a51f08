import Verif.Graph.TreeLemmas

/-! # Paths -/

namespace MZ.Graph
open MZ.Globals MZ.Graph.Spec

theorem trees_of_path {g : Digraph} {step : Int → Int → Int → Prop}
    (hst : ∀ e a b, step e a b → g.src e = a ∧ g.dst e = b) {s t : Int} {V A : Finset Int}
    (h : IsPath step s t V A) : DTree g s V A ∧ DTree g.rev t V A := by
  induction h with
  | single s =>
    refine ⟨⟨⟨by simp, by intro e he; simp at he, ?_⟩, by intro e he; simp at he, ?_⟩,
      ⟨by simp, by intro e he; simp at he, ?_⟩, by intro e he; simp at he, ?_⟩
    · intro n hn; rw [Finset.mem_singleton] at hn; subst hn; exact .refl
    · intro n hn hne; exact absurd (Finset.mem_singleton.mp hn) hne
    · intro n hn; rw [Finset.mem_singleton] at hn; subst hn; exact .refl
    · intro n hn hne; exact absurd (Finset.mem_singleton.mp hn) hne
  | cons e s v t V A hs hsV _ ih =>
    obtain ⟨⟨⟨hv, hsub, hreach⟩, hr, hu⟩, ⟨ht, hsub', hreach'⟩, hr', hu'⟩ := ih
    obtain ⟨he1, he2⟩ := hst e s v hs
    have hstep : Step g (insert e A) s v := ⟨e, Finset.mem_insert_self .., he1, he2⟩
    have hstep' : Step g.rev (insert e A) v s := ⟨e, Finset.mem_insert_self .., he2, he1⟩
    have mono : ∀ a b, Step g A a b → Step g (insert e A) a b := by
      rintro a b ⟨e', he', h1, h2⟩; exact ⟨e', Finset.mem_insert_of_mem he', h1, h2⟩
    have mono' : ∀ a b, Step g.rev A a b → Step g.rev (insert e A) a b := by
      rintro a b ⟨e', he', h1, h2⟩; exact ⟨e', Finset.mem_insert_of_mem he', h1, h2⟩
    have hne : ∀ n ∈ V, n ≠ s := fun n hn hc => hsV (hc ▸ hn)
    have hsubN : Subgraph g (insert s V) (insert e A) := by
      intro e' he'
      rcases Finset.mem_insert.mp he' with rfl | he'
      · rw [he1, he2]; exact ⟨Finset.mem_insert_self .., Finset.mem_insert_of_mem hv⟩
      · exact ⟨Finset.mem_insert_of_mem (hsub e' he').1, Finset.mem_insert_of_mem (hsub e' he').2⟩
    refine ⟨⟨⟨Finset.mem_insert_self .., hsubN, ?_⟩, ?_, ?_⟩, ⟨Finset.mem_insert_of_mem ht, ?_, ?_⟩, ?_, ?_⟩
    · intro n hn
      rcases Finset.mem_insert.mp hn with rfl | hn
      · exact .refl
      · exact .head hstep (reach_mono mono (hreach n hn))
    · intro e' he'
      rcases Finset.mem_insert.mp he' with rfl | he'
      · rw [he2]; exact hne v hv
      · exact hne _ (hsub e' he').2
    · intro n hn hns
      have hn := (Finset.mem_insert.mp hn).resolve_left hns
      by_cases hnv : n = v
      · subst hnv
        refine ⟨e, ⟨Finset.mem_insert_self .., he2⟩, ?_⟩
        rintro e' ⟨he', hd⟩
        rcases Finset.mem_insert.mp he' with h | he'
        · exact h
        · exact absurd hd (hr e' he')
      · obtain ⟨f, ⟨hf, hfd⟩, hfu⟩ := hu n hn hnv
        refine ⟨f, ⟨Finset.mem_insert_of_mem hf, hfd⟩, ?_⟩
        rintro e' ⟨he', hd⟩
        rcases Finset.mem_insert.mp he' with rfl | he'
        · exact absurd (hd.symm.trans he2) hnv
        · exact hfu e' ⟨he', hd⟩
    · intro e' he'; exact (hsubN e' he').symm
    · intro n hn
      rcases Finset.mem_insert.mp hn with rfl | hn
      · exact (reach_mono mono' (hreach' v hv)).tail hstep'
      · exact reach_mono mono' (hreach' n hn)
    · intro e' he'
      rcases Finset.mem_insert.mp he' with rfl | he'
      · change g.src e' ≠ t
        rw [he1]; exact fun hc => hne t ht hc.symm
      · exact hr' e' he'
    · intro n hn hnt
      rcases Finset.mem_insert.mp hn with rfl | hn
      · refine ⟨e, ⟨Finset.mem_insert_self .., he1⟩, ?_⟩
        rintro e' ⟨he', hd⟩
        rcases Finset.mem_insert.mp he' with h | he'
        · exact h
        · exact absurd hd (hne _ (hsub e' he').1)
      · obtain ⟨f, ⟨hf, hfd⟩, hfu⟩ := hu' n hn hnt
        refine ⟨f, ⟨Finset.mem_insert_of_mem hf, hfd⟩, ?_⟩
        rintro e' ⟨he', hd⟩
        rcases Finset.mem_insert.mp he' with rfl | he'
        · exact absurd (hd.symm.trans he1) (hne n hn)
        · exact hfu e' ⟨he', hd⟩

theorem path_of_trees {g : Digraph} {t : Int} : ∀ (k : Nat) {s : Int} {V A : Finset Int}, V.card = k →
    (∀ e ∈ A, g.elo ≤ e ∧ e ≤ g.ehi) → DTree g s V A → DTree g.rev t V A → IsPath (along g) s t V A := by
  intro k
  induction k with
  | zero =>
    intro s V A hk _ h1 _
    rw [Finset.card_eq_zero] at hk
    subst hk
    exact absurd h1.1.1 (by simp)
  | succ k ih =>
    intro s V A hk hA h1 h2
    obtain ⟨⟨hs, hsub, hreach⟩, hr, hu⟩ := h1
    obtain ⟨⟨ht, hsub', hreach'⟩, hr', hu'⟩ := h2
    by_cases hst : s = t
    · subst hst
      have hV : V = {s} := by
        apply Finset.eq_singleton_iff_unique_mem.mpr
        refine ⟨hs, fun n hn => ?_⟩
        rcases Relation.ReflTransGen.cases_head (hreach n hn) with h | ⟨b, ⟨e, he, h1, -⟩, -⟩
        · exact h.symm
        · exact absurd h1 (hr' e he)
      have hA0 : A = ∅ := by
        apply Finset.eq_empty_of_forall_notMem
        intro e he
        have := (hsub e he).1
        rw [hV, Finset.mem_singleton] at this
        exact hr' e he this
      rw [hV, hA0]
      exact .single s
    · obtain ⟨e0, ⟨he0, hs0⟩, hu0⟩ := hu' s hs hst
      have hs0 : g.src e0 = s := hs0
      have hu0 : ∀ e ∈ A, g.src e = s → e = e0 := fun e he h => hu0 e ⟨he, h⟩
      have hv := (hsub e0 he0).2
      have hvs := hr e0 he0
      have hsubN : Subgraph g (V.erase s) (A.erase e0) := by
        intro e he
        obtain ⟨hne, he⟩ := Finset.mem_erase.mp he
        exact ⟨Finset.mem_erase.mpr ⟨fun hc => hne (hu0 e he hc), (hsub e he).1⟩,
          Finset.mem_erase.mpr ⟨hr e he, (hsub e he).2⟩⟩
      have hp : IsPath (along g) (g.dst e0) t (V.erase s) (A.erase e0) := by
        apply ih
        · rw [Finset.card_erase_of_mem hs]; omega
        · intro e he; exact hA e (Finset.mem_of_mem_erase he)
        · refine ⟨⟨Finset.mem_erase.mpr ⟨hvs, hv⟩, hsubN, ?_⟩, ?_, ?_⟩
          · have claim : ∀ n, Relation.ReflTransGen (Step g A) s n →
                n = s ∨ Relation.ReflTransGen (Step g (A.erase e0)) (g.dst e0) n := by
              intro n hn
              induction hn with
              | refl => exact .inl rfl
              | @tail b c _ hbc ihb =>
                right
                obtain ⟨e, he, h1, h2⟩ := hbc
                by_cases hb : b = s
                · rw [hb] at h1
                  rw [hu0 e he h1] at h2
                  rw [← h2]
                · have hne : e ≠ e0 := by
                    rintro rfl
                    exact hb (h1.symm.trans hs0)
                  exact (ihb.resolve_left hb).tail ⟨e, Finset.mem_erase.mpr ⟨hne, he⟩, h1, h2⟩
            intro n hn
            obtain ⟨hne, hn⟩ := Finset.mem_erase.mp hn
            exact (claim n (hreach n hn)).resolve_left hne
          · intro e he hd
            obtain ⟨hne, he⟩ := Finset.mem_erase.mp he
            exact hne ((hu _ hv hvs).unique ⟨he, hd⟩ ⟨he0, rfl⟩)
          · intro n hn hne
            obtain ⟨hns, hn⟩ := Finset.mem_erase.mp hn
            obtain ⟨f, ⟨hf, hfd⟩, hfu⟩ := hu n hn hns
            refine ⟨f, ⟨Finset.mem_erase.mpr ⟨?_, hf⟩, hfd⟩, ?_⟩
            · rintro rfl
              exact hne hfd.symm
            · rintro e ⟨he, hd⟩
              exact hfu e ⟨Finset.mem_of_mem_erase he, hd⟩
        · refine ⟨⟨Finset.mem_erase.mpr ⟨fun hc => hst hc.symm, ht⟩, fun e he => (hsubN e he).symm, ?_⟩, ?_, ?_⟩
          · have claim : ∀ n, Relation.ReflTransGen (Step g.rev A) t n → n ≠ s →
                Relation.ReflTransGen (Step g.rev (A.erase e0)) t n := by
              intro n hn
              induction hn with
              | refl => intro _; exact .refl
              | @tail b c _ hbc ihb =>
                intro hc
                obtain ⟨e, he, h1, h2⟩ := hbc
                have hb : b ≠ s := by rw [← h1]; exact hr e he
                refine (ihb hb).tail ⟨e, Finset.mem_erase.mpr ⟨?_, he⟩, h1, h2⟩
                rintro rfl
                exact hc (h2.symm.trans hs0)
            intro n hn
            obtain ⟨hne, hn⟩ := Finset.mem_erase.mp hn
            exact claim n (hreach' n hn) hne
          · intro e he
            exact hr' e (Finset.mem_of_mem_erase he)
          · intro n hn hne
            obtain ⟨hns, hn⟩ := Finset.mem_erase.mp hn
            obtain ⟨f, ⟨hf, hfd⟩, hfu⟩ := hu' n hn hne
            refine ⟨f, ⟨Finset.mem_erase.mpr ⟨?_, hf⟩, hfd⟩, ?_⟩
            · rintro rfl
              exact hns (hfd.symm.trans hs0)
            · rintro e ⟨he, hd⟩
              exact hfu e ⟨Finset.mem_of_mem_erase he, hd⟩
      have := IsPath.cons (step := along g) e0 s _ t _ _ ⟨(hA e0 he0).1, (hA e0 he0).2, hs0, rfl⟩
        (Finset.notMem_erase s V) hp
      rwa [Finset.insert_erase hs, Finset.insert_erase he0] at this

theorem trees_iff_path (g : Digraph) (s t : Int) (V : Finset Int) (es : Int → Prop) :
    DTree g s V (selected g.elo g.ehi es) ∧ DTree g.rev t V (selected g.elo g.ehi es) ↔
      IsPath (along g) s t V (selected g.elo g.ehi es) :=
  ⟨fun h => path_of_trees _ rfl (fun e he => ⟨(mem_selected.mp he).1, (mem_selected.mp he).2.1⟩) h.1 h.2,
    trees_of_path fun _ _ _ h => h.2.2⟩

theorem dpathInt_iff (N E : Int) (src dst : Int → Int) (s t : Int) (ns es : Int → Prop) :
    fznDpathInt N E src dst s t ns es ↔
      IsPath (along ⟨1, N, 1, E, src, dst⟩) s t (selected 1 N ns) (selected 1 E es) := by
  unfold fznDpathInt
  rw [dtreeInt_iff, dtreeInt_iff]
  exact trees_iff_path ⟨1, N, 1, E, src, dst⟩ s t _ es

theorem dpathEnum_iff (g : Digraph) (s t : Int) (ns es : Int → Prop) :
    fznDpathEnum g s t ns es ↔
      IsPath (along g) s t (selected g.nlo g.nhi ns) (selected g.elo g.ehi es) := by
  classical
  rw [← trees_iff_path]
  constructor
  · rintro ⟨dist, hdom, hs, ht, -, -, hin, hout, -, -, hd, hc, hsub⟩
    rw [cnt_eq, cnt_eq] at hc
    have hs := at_iff.mp hs
    have ht := at_iff.mp ht
    have hsub := (subgraphEnum_iff ..).mp hsub
    have hin' : ∀ n, n ∈ selected g.nlo g.nhi ns ∧ n ≠ s → ∃ e ∈ selected g.elo g.ehi es, g.dst e = n := by
      rintro n ⟨hn, hne⟩
      obtain ⟨h1, h2, h3⟩ := mem_selected.mp hn
      obtain ⟨e, e1, e2, e3, e4⟩ := hin n h1 h2 ⟨h3, hne⟩
      exact ⟨e, mem_selected.mpr ⟨e1, e2, e4⟩, e3⟩
    have hout' : ∀ n, n ∈ selected g.nlo g.nhi ns ∧ n ≠ t → ∃ e ∈ selected g.elo g.ehi es, g.src e = n := by
      rintro n ⟨hn, hne⟩
      obtain ⟨h1, h2, h3⟩ := mem_selected.mp hn
      obtain ⟨e, e1, e2, e3, e4⟩ := hout n h1 h2 ⟨h3, hne⟩
      exact ⟨e, mem_selected.mpr ⟨e1, e2, e4⟩, e3⟩
    have hd' : ∀ e ∈ selected g.elo g.ehi es, dist (g.dst e) = dist (g.src e) + 1 := by
      intro e he
      obtain ⟨h1, h2, h3⟩ := mem_selected.mp he
      exact (hd e h1 h2 h3).2.2
    refine ⟨⟨⟨hs, hsub, ?_⟩, indegree_of_card hs (fun n hn hne => hin' n ⟨hn, hne⟩) (by omega)⟩,
      ⟨ht, fun e he => (hsub e he).symm, ?_⟩,
      indegree_of_card (g := g.rev) ht (fun n hn hne => hout' n ⟨hn, hne⟩) (by omega)⟩
    · choose! f hf using hin'
      apply reach_of_parents (dist := dist) (parent := fun n => g.src (f n))
      · intro n hn
        obtain ⟨h1, h2, -⟩ := mem_selected.mp hn
        exact (hdom n h1 h2).1
      · intro n hn hne
        obtain ⟨h1, h2⟩ := hf n ⟨hn, hne⟩
        refine ⟨(hsub _ h1).1, ⟨f n, h1, rfl, h2⟩, ?_⟩
        have := hd' _ h1
        rw [h2] at this
        exact this
    · choose! f hf using hout'
      apply reach_of_parents (dist := fun n => ((Finset.Icc g.nlo g.nhi).card : Int) - 1 - dist n)
        (parent := fun n => g.dst (f n))
      · intro n hn
        obtain ⟨h1, h2, -⟩ := mem_selected.mp hn
        have := (hdom n h1 h2).2
        omega
      · intro n hn hne
        obtain ⟨h1, h2⟩ := hf n ⟨hn, hne⟩
        refine ⟨(hsub _ h1).2, ⟨f n, h1, rfl, h2⟩, ?_⟩
        have := hd' _ h1
        rw [h2] at this
        omega
  · rintro ⟨h1, h2⟩
    have hc := card_of_dtree h1
    obtain ⟨dist, par, h0, hp, hb⟩ := witnesses h1.1
    obtain ⟨⟨hs, hsub, -⟩, hr, hu⟩ := h1
    obtain ⟨⟨ht, -, -⟩, hr', hu'⟩ := h2
    have hcard := card_selected_le (N := 0) ns g.nlo g.nhi
    have hpos := Finset.card_pos.mpr ⟨s, hs⟩
    have hrange : ∀ e, g.elo ≤ e → e ≤ g.ehi → es e → e ∈ selected g.elo g.ehi es :=
      fun e h1 h2 h3 => mem_selected.mpr ⟨h1, h2, h3⟩
    have hcnt : ∀ p : Int → Prop, (∃! e, e ∈ selected g.elo g.ehi es ∧ p e) →
        cnt g.elo g.ehi (fun e => p e ∧ es e) ≤ 1 := by
      rintro p ⟨e, -, he⟩
      rw [cnt_eq]
      have : (selected g.elo g.ehi fun e => p e ∧ es e).card ≤ 1 := by
        rw [Finset.card_le_one]
        intro a ha b hb
        obtain ⟨a1, a2, a3, a4⟩ := mem_selected.mp ha
        obtain ⟨b1, b2, b3, b4⟩ := mem_selected.mp hb
        rw [he a ⟨hrange a a1 a2 a4, a3⟩, he b ⟨hrange b b1 b2 b4, b3⟩]
      omega
    have hinc : ∀ e ∈ selected g.elo g.ehi es, dist (g.dst e) = dist (g.src e) + 1 := by
      intro k hk
      have hn := (hsub k hk).2
      obtain ⟨⟨k', hk', hs, hd⟩, -, -, hdist⟩ := hp _ hn (hr k hk)
      have := (hu _ hn (hr k hk)).unique ⟨hk, rfl⟩ ⟨hk', hd⟩
      subst this
      rw [hdist, hs]
    refine ⟨fun n => if n ∈ selected g.nlo g.nhi ns then dist n else 0, ?_, at_iff.mpr hs, at_iff.mpr ht,
      at_iff.mpr (mem_selected.mpr ⟨(mem_selected.mp hs).1, (mem_selected.mp hs).2.1, by
        dsimp only; rw [if_pos hs, h0]; rfl⟩), ?_, ?_, ?_, ?_, ?_, ?_, ?_, (subgraphEnum_iff ..).mpr hsub⟩
    · intro n h1 h2
      dsimp only
      by_cases hn : n ∈ selected g.nlo g.nhi ns
      · rw [if_pos hn]
        have := hb n hn
        omega
      · rw [if_neg hn]; omega
    · intro n h1 h2 h3
      exact if_neg fun hc => h3 (mem_selected.mp hc).2.2
    · rintro n h1 h2 ⟨h3, h4⟩
      obtain ⟨e, ⟨he, hd⟩, -⟩ := hu n (mem_selected.mpr ⟨h1, h2, h3⟩) h4
      obtain ⟨e1, e2, e3⟩ := mem_selected.mp he
      exact ⟨e, e1, e2, hd, e3⟩
    · rintro n h1 h2 ⟨h3, h4⟩
      obtain ⟨e, ⟨he, hd⟩, -⟩ := hu' n (mem_selected.mpr ⟨h1, h2, h3⟩) h4
      obtain ⟨e1, e2, e3⟩ := mem_selected.mp he
      exact ⟨e, e1, e2, hd, e3⟩
    · rintro n h1 h2 ⟨h3, h4⟩
      exact hcnt _ (hu n (mem_selected.mpr ⟨h1, h2, h3⟩) h4)
    · rintro n h1 h2 ⟨h3, h4⟩
      exact hcnt _ (hu' n (mem_selected.mpr ⟨h1, h2, h3⟩) h4)
    · intro e h1 h2 h3
      have he := hrange e h1 h2 h3
      obtain ⟨hs1, hs2⟩ := hsub e he
      have a := mem_selected.mp hs1
      have b := mem_selected.mp hs2
      refine ⟨⟨b.1, b.2.1⟩, ⟨a.1, a.2.1⟩, ?_⟩
      dsimp only
      rw [if_pos hs1, if_pos hs2, hinc e he]
      push_cast
      rfl
    · rw [cnt_eq, cnt_eq]
      omega

/-! ## Undirected paths -/

/-- The undirected edge behind an edge of the doubled graph. -/
def und (g : Digraph) (k : Int) : Int := if k ≤ edges g then k - 1 + g.elo else k - edges g - 1 + g.elo

theorem either_of_both {g : Digraph} {k a b : Int} (h : along (both g) k a b) : either g (und g k) a b := by
  obtain ⟨k1, k2, h1, h2⟩ := h
  obtain ⟨e, e1, e2, (⟨hkl, hke, h5, h6⟩ | ⟨hkl, hke, h5, h6⟩)⟩ := both_edge g k k1 k2
  · have hk : und g k = e := by unfold und; rw [if_pos hkl]; omega
    rw [hk]
    exact .inl ⟨e1, e2, h5.symm.trans h1, h6.symm.trans h2⟩
  · have hk : und g k = e := by unfold und; rw [if_neg hkl]; omega
    rw [hk]
    exact .inr ⟨e1, e2, h6.symm.trans h2, h5.symm.trans h1⟩

theorem both_of_either {g : Digraph} {e a b : Int} (h : either g e a b) :
    ∃ k, along (both g) k a b ∧ und g k = e := by
  have hE := edges_eq g
  rcases h with ⟨e1, e2, h1, h2⟩ | ⟨e1, e2, h1, h2⟩
  · obtain ⟨⟨k1, k2⟩, h3, h4⟩ := both_fst g e e1 e2
    refine ⟨_, ⟨k1, k2, h3.trans h1, h4.trans h2⟩, ?_⟩
    unfold und
    rw [if_pos (by omega)]
    omega
  · obtain ⟨⟨k1, k2⟩, h3, h4⟩ := both_snd g e e1 e2
    refine ⟨_, ⟨k1, k2, h3.trans h2, h4.trans h1⟩, ?_⟩
    unfold und
    rw [if_neg (by omega)]
    omega

theorem path_image {g : Digraph} {s t : Int} {V D : Finset Int} (h : IsPath (along (both g)) s t V D) :
    IsPath (either g) s t V (D.image (und g)) := by
  induction h with
  | single s => rw [Finset.image_empty]; exact .single s
  | cons e s v t V A hs hV _ ih =>
    rw [Finset.image_insert]
    exact .cons _ s v t V _ (either_of_both hs) hV ih

theorem path_lift {g : Digraph} {s t : Int} {V A : Finset Int} (h : IsPath (either g) s t V A) :
    ∃ D : Finset Int, (∀ k ∈ D, 1 ≤ k ∧ k ≤ 2 * edges g) ∧ IsPath (along (both g)) s t V D ∧ D.image (und g) = A := by
  induction h with
  | single s => exact ⟨∅, by simp, .single s, by simp⟩
  | cons e s v t V A hs hV _ ih =>
    obtain ⟨D, h1, h2, h3⟩ := ih
    obtain ⟨k, hk, hu⟩ := both_of_either hs
    refine ⟨insert k D, ?_, .cons k s v t V D hk hV h2, ?_⟩
    · intro k' hk'
      rcases Finset.mem_insert.mp hk' with rfl | hk'
      · exact ⟨hk.1, hk.2.1⟩
      · exact h1 k' hk'
    · rw [Finset.image_insert, h3, hu]

theorem path_both (g : Digraph) (s t : Int) (V : Finset Int) (es : Int → Prop) :
    (∃ des, Agree g es des ∧ IsPath (along (both g)) s t V (selected 1 (2 * edges g) des)) ↔
      IsPath (either g) s t V (selected g.elo g.ehi es) := by
  have hE := edges_eq g
  constructor
  · rintro ⟨des, hA, hp⟩
    have := path_image hp
    have heq : (selected 1 (2 * edges g) des).image (und g) = selected g.elo g.ehi es := by
      ext e
      rw [Finset.mem_image, mem_selected]
      constructor
      · rintro ⟨k, hk, rfl⟩
        obtain ⟨k1, k2, k3⟩ := mem_selected.mp hk
        obtain ⟨e, e1, e2, (⟨hkl, hke, -⟩ | ⟨hkl, hke, -⟩)⟩ := both_edge g k k1 k2
        · have hk : und g k = e := by unfold und; rw [if_pos hkl]; omega
          rw [hk]
          exact ⟨e1, e2, (agree_iff hA e e1 e2).mpr (.inl (hke ▸ k3))⟩
        · have hk : und g k = e := by unfold und; rw [if_neg hkl]; omega
          rw [hk]
          exact ⟨e1, e2, (agree_iff hA e e1 e2).mpr (.inr (hke ▸ k3))⟩
      · rintro ⟨e1, e2, e3⟩
        rcases (agree_iff hA e e1 e2).mp e3 with hd | hd
        · refine ⟨_, mem_selected.mpr ⟨by omega, by omega, hd⟩, ?_⟩
          unfold und
          rw [if_pos (by omega)]
          omega
        · refine ⟨_, mem_selected.mpr ⟨by omega, by omega, hd⟩, ?_⟩
          unfold und
          rw [if_neg (by omega)]
          omega
    rwa [heq] at this
  · intro hp
    obtain ⟨D, h1, h2, h3⟩ := path_lift hp
    have hD : selected 1 (2 * edges g) (· ∈ D) = D := by
      ext k
      rw [mem_selected]
      exact ⟨fun h => h.2.2, fun h => ⟨(h1 k h).1, (h1 k h).2, h⟩⟩
    refine ⟨(· ∈ D), ?_, by rw [hD]; exact h2⟩
    intro e e1 e2
    have hm : es (e - 1 + g.elo) ↔ e - 1 + g.elo ∈ D.image (und g) := by
      rw [h3, mem_selected]
      exact ⟨fun h => ⟨by omega, by omega, h⟩, fun h => h.2.2⟩
    rw [hm, Finset.mem_image]
    constructor
    · rintro ⟨k, hk, hu⟩
      unfold und at hu
      split at hu
      · left; rwa [show e = k by omega]
      · right; rwa [show e + edges g = k by omega]
    · rintro (h | h)
      · refine ⟨e, h, ?_⟩
        unfold und
        rw [if_pos e2]
      · refine ⟨_, h, ?_⟩
        unfold und
        rw [if_neg (by omega)]
        omega

end MZ.Graph
