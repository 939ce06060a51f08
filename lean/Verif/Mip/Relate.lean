import Verif.Mip.Clique
import Mathlib.Logic.Relation
import Mathlib.Data.List.Perm.Subperm

/-! # The relations that are found follow from the equations -/

namespace MZ.Mip

/-- The coefficients are not 0 and the variables are different. -/
def Eq2.Proper (e : Eq2) : Prop := e.c0 ≠ 0 ∧ e.c1 ≠ 0 ∧ e.v0 ≠ e.v1

/-- The variable is in one of the equations. -/
def VarOf (eqs : List Eq2) (x : Nat) : Prop := ∃ e ∈ eqs, x = e.v0 ∨ x = e.v1

/-- What is so of all arcs of the graph. -/
def ArcOk (eqs : List Eq2) (x : Nat) (p : Nat × ℚ × ℚ) : Prop :=
  (∀ σ, (∀ e ∈ eqs, e.Holds σ) → σ x = p.2.1 * σ p.1 + p.2.2) ∧ p.2.1 ≠ 0 ∧ VarOf eqs p.1

theorem arcs_ok {eqs : List Eq2} (h : ∀ e ∈ eqs, e.Proper) :
    AllG (fun x p => ArcOk eqs x p ∧ p.1 ≠ x) (eqs.foldl addEdge []) := by
  refine allG_edges eqs (fun e he => ?_) [] (by intro q hq; simp at hq)
  obtain ⟨h0, h1, hne⟩ := h e he
  refine ⟨⟨⟨fun σ hσ => ?_, ?_, e, he, .inr rfl⟩, hne.symm⟩, ⟨⟨fun σ hσ => ?_, ?_, e, he, .inl rfl⟩, hne⟩⟩
  · have := hσ e he
    unfold Eq2.Holds at this
    dsimp only
    rw [← this]; field_simp; ring
  · exact div_ne_zero (neg_ne_zero.mpr h1) h0
  · have := hσ e he
    unfold Eq2.Holds at this
    dsimp only
    rw [← this]; field_simp; ring
  · exact div_ne_zero (neg_ne_zero.mpr h0) h1

theorem nodup_rels (eqs : List Eq2) : ∀ g : Graph, (∀ q ∈ g, (q.2.map Prod.fst).Nodup) →
    ∀ q ∈ eqs.foldl addEdge g, (q.2.map Prod.fst).Nodup := by
  have one : ∀ (g : Graph) x y r, (∀ q ∈ g, (q.2.map Prod.fst).Nodup) → ∀ q ∈ g.put x y r, (q.2.map Prod.fst).Nodup := by
    intro g x y r h q hq
    unfold Graph.put at hq
    split at hq
    · obtain ⟨q', hq', rfl⟩ := List.mem_map.mp hq
      split
      · exact nodup_put (h q' hq')
      · exact h q' hq'
    · rcases List.mem_append.mp hq with hq | hq
      · exact h q hq
      · rw [List.mem_singleton] at hq; subst hq; simp
  induction eqs with
  | nil => intro g h; exact h
  | cons e t ih => intro g h; exact ih _ (one _ _ _ _ (one _ _ _ _ h))

/-- The relations that a search finds. -/
theorem propagate_ok {eqs : List Eq2} (h : ∀ e ∈ eqs, e.Proper) {src : Nat} (hsrc : VarOf eqs src) {m : Rels}
    (hm : propagate (eqs.foldl addEdge []) src = some m) :
    (∀ p ∈ m, ArcOk eqs src p) ∧ (src :: m.map Prod.fst).Nodup ∧ ∀ x, x ∈ src :: m.map Prod.fst ↔ VarOf eqs x := by
  have hG := arcs_ok h
  have hkeys : ∀ x, x ∈ (eqs.foldl addEdge []).map Prod.fst ↔ VarOf eqs x := by
    intro x; rw [keys_edges]; simp [VarOf]
  have hnd := nodup_edges eqs [] (by simp)
  have hrel := nodup_rels eqs [] (by simp)
  generalize eqs.foldl addEdge [] = g at *
  unfold propagate at hm
  cases hp : propagate2 g src (g.length + 1) src (1, 0) (g.get src) with
  | none => rw [hp] at hm; simp at hm
  | some m' =>
    rw [hp] at hm
    dsimp only at hm
    by_cases hlen : m'.length = g.length - 1
    · rw [if_pos hlen] at hm
      cases Option.some.inj hm
      have hI := propagate2_inv (g := g) (src := src)
        (fun m => (∀ p ∈ m, ArcOk eqs src p ∧ p.1 ≠ src) ∧ (m.map Prod.fst).Nodup)
        (fun y r => (∀ σ, (∀ e ∈ eqs, e.Holds σ) → σ src = r.1 * σ y + r.2) ∧ r.1 ≠ 0 ∧ VarOf eqs y)
        (fun m y r hm hr hy => ⟨fun p hp => by
          rcases mem_put hp with hp | rfl
          · exact hm.1 p hp
          · exact ⟨hr, hy⟩, nodup_put hm.2⟩)
        (fun via rel hr d hd => by
          obtain ⟨⟨h1, h2, h3⟩, -⟩ := allG_get hG via d hd
          refine ⟨fun σ hσ => ?_, mul_ne_zero hr.2.1 h2, h3⟩
          rw [hr.1 σ hσ, h1 σ hσ]; ring)
        _ src (1, 0) (g.get src) m ⟨fun σ _ => by ring, one_ne_zero, hsrc⟩
        ⟨fun p hp => allG_get hG src p hp, by
          unfold Graph.get
          cases hf : g.find? (fun p => p.1 = src) with
          | none => simp
          | some q => exact hrel q (List.mem_of_find?_eq_some hf)⟩ hp
      have hn : (src :: m.map Prod.fst).Nodup := by
        rw [List.nodup_cons]
        refine ⟨fun hc => ?_, hI.2⟩
        obtain ⟨p, hp, he⟩ := List.mem_map.mp hc
        exact (hI.1 p hp).2 he
      refine ⟨fun p hp => (hI.1 p hp).1, hn, fun x => ?_⟩
      have hsub : src :: m.map Prod.fst ⊆ g.map Prod.fst := by
        intro y hy
        rw [hkeys]
        rcases List.mem_cons.mp hy with rfl | hy
        · exact hsrc
        · obtain ⟨p, hp, rfl⟩ := List.mem_map.mp hy
          exact (hI.1 p hp).1.2.2
      have hperm := (List.Nodup.subperm hn hsub).perm_of_length_le (by
        simp only [List.length_map, List.length_cons]
        have : g.length ≠ 0 := by
          intro h0
          have := (hkeys src).mpr hsrc
          rw [List.length_eq_zero_iff] at h0
          rw [h0] at this; simp at this
        omega)
      rw [hperm.mem_iff, hkeys]
    · rw [if_neg hlen] at hm; simp at hm

/-- The choice of the reference variable. -/
theorem best_spec (crit : Nat → Bool × Bool) (m : Rels) : ∀ b : Nat × Crit, b.2.isInt = (crit b.1).1 → b.2.hasEnc = (crit b.1).2 →
    let best := m.foldl (fun (b : Nat × Crit) p =>
      let c : Crit := ⟨(crit p.1).1, (crit p.1).2, |p.2.1|, - (p.1 : Int)⟩
      if c.gt b.2 then (p.1, c) else b) b
    (best.1 = b.1 ∨ best.1 ∈ m.map Prod.fst) ∧ ∀ x, x = b.1 ∨ x ∈ m.map Prod.fst → (crit x).1 = true →
      (crit best.1).1 = true ∧ ((crit x).2 = true → (crit best.1).2 = true) := by
  induction m with
  | nil =>
    intro b h1 h2
    refine ⟨.inl rfl, ?_⟩
    rintro x (rfl | h) hx
    · exact ⟨hx, id⟩
    · simp at h
  | cons p t ih =>
    intro b h1 h2
    dsimp only
    rw [List.foldl_cons]
    by_cases hgt : (Crit.mk (crit p.1).1 (crit p.1).2 |p.2.1| (- (p.1 : Int))).gt b.2 = true
    · rw [if_pos hgt]
      have := ih (p.1, ⟨(crit p.1).1, (crit p.1).2, |p.2.1|, - (p.1 : Int)⟩) rfl rfl
      dsimp only at this
      refine ⟨.inr ?_, ?_⟩
      · rcases this.1 with h | h
        · rw [h]; simp
        · rw [List.map_cons]; exact List.mem_cons_of_mem _ h
      · intro x hx hi
        rcases hx with rfl | hx
        · have hp := this.2 p.1 (.inl rfl)
          unfold Crit.gt at hgt
          dsimp only at hgt
          rw [h1, h2] at hgt
          by_cases e1 : (crit p.1).1 = (crit b.1).1
          · have hp := hp (e1 ▸ hi)
            refine ⟨hp.1, fun he => hp.2 ?_⟩
            rw [if_neg (by simpa using e1)] at hgt
            by_cases e2 : (crit p.1).2 = (crit b.1).2
            · rw [e2]; exact he
            · rw [if_pos e2] at hgt; exact hgt
          · rw [if_pos e1] at hgt
            rw [hgt, hi] at e1; exact absurd rfl e1
        · rw [List.map_cons, List.mem_cons] at hx
          exact this.2 x hx hi
    · rw [if_neg hgt]
      have := ih b h1 h2
      dsimp only at this
      refine ⟨this.1.imp_right (fun h => by rw [List.map_cons]; exact List.mem_cons_of_mem _ h), ?_⟩
      intro x hx hi
      rw [List.map_cons, List.mem_cons] at hx
      rcases hx with hx | rfl | hx
      · exact this.2 x (.inl hx) hi
      · have hb := this.2 b.1 (.inl rfl)
        unfold Crit.gt at hgt
        dsimp only at hgt
        rw [h1, h2] at hgt
        by_cases e1 : (crit p.1).1 = (crit b.1).1
        · have hb := hb (e1 ▸ hi)
          refine ⟨hb.1, fun he => hb.2 ?_⟩
          rw [if_neg (by simpa using e1)] at hgt
          by_cases e2 : (crit p.1).2 = (crit b.1).2
          · rw [← e2]; exact he
          · rw [if_pos e2] at hgt; exact absurd he hgt
        · rw [if_pos e1] at hgt
          exact absurd hi hgt
      · exact this.2 x (.inr hx) hi

/-- The reference variable and the relations to it. -/
theorem relate_ok {crit : Nat → Bool × Bool} {eqs : List Eq2} (h : ∀ e ∈ eqs, e.Proper) {ref : Nat} {rels : Rels}
    (hr : relate crit eqs = some (ref, rels)) :
    (∀ σ : Nat → ℚ, (∀ e ∈ eqs, e.Holds σ) → ∀ p ∈ rels, σ ref = p.2.1 * σ p.1 + p.2.2) ∧
      (∀ p ∈ rels, p.2.1 ≠ 0) ∧ (rels.map Prod.fst).Nodup ∧ (∀ x, x ∈ rels.map Prod.fst ↔ VarOf eqs x) ∧
      (ref, 1, 0) ∈ rels ∧ ∀ x, VarOf eqs x → (crit x).1 = true →
        (crit ref).1 = true ∧ ((crit x).2 = true → (crit ref).2 = true) := by
  have hkeys : ∀ x, x ∈ (eqs.foldl addEdge []).map Prod.fst ↔ VarOf eqs x := by
    intro x; rw [keys_edges]; simp [VarOf]
  unfold relate at hr
  dsimp only at hr
  split at hr
  · simp at hr
  · rename_i x0 y t hg
    have hx0 : VarOf eqs x0 := by rw [← hkeys, hg]; simp
    obtain ⟨m0, hm0, hr⟩ := Option.bind_eq_some_iff.mp hr
    have h0 := propagate_ok h hx0 hm0
    have hb := best_spec crit m0 (x0, ⟨(crit x0).1, (crit x0).2, 1, - (x0 : Int)⟩) rfl rfl
    dsimp only at hb
    obtain ⟨m, hm, hr⟩ := Option.map_eq_some_iff.mp hr
    generalize (m0.foldl _ _ : Nat × Crit) = best at hb hm hr
    cases hr
    have hbest : VarOf eqs best.1 := by
      rw [← h0.2.2]
      exact List.mem_cons.mpr hb.1
    have h1 := propagate_ok h hbest hm
    refine ⟨?_, ?_, h1.2.1, h1.2.2, by simp, fun x hx hi => hb.2 x ?_ hi⟩
    · intro σ hσ p hp
      rcases List.mem_cons.mp hp with rfl | hp
      · dsimp only; ring
      · exact (h1.1 p hp).1 σ hσ
    · intro p hp
      rcases List.mem_cons.mp hp with rfl | hp
      · exact one_ne_zero
      · exact (h1.1 p hp).2.1
    · rw [← h0.2.2] at hx
      exact List.mem_cons.mp hx

end MZ.Mip
