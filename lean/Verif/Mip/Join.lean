import Verif.Mip.Relate

/-! # Cliques are the connected parts of the graph of the equations -/

namespace MZ.Mip

/-- One equation has both variables. -/
def Link (eqs : List Eq2) (x y : Nat) : Prop := ∃ e ∈ eqs, x = e.v0 ∧ y = e.v1

/-- What is so after the equations `E`. -/
structure CInv (E : List Eq2) (s : Cliques) : Prop where
  sub : ∀ k, ∀ e ∈ s.cls k, e ∈ E ∧ e.v0 ≠ e.v1 ∧ s.nClique e.v0 = some k ∧ s.nClique e.v1 = some k
  all : ∀ e ∈ E, e.v0 ≠ e.v1 → ∃ k, e ∈ s.cls k
  var : ∀ x k, s.nClique x = some k → k < s.size ∧ ∃ e ∈ s.cls k, x = e.v0 ∨ x = e.v1
  conn : ∀ x y k, s.nClique x = some k → s.nClique y = some k → Relation.EqvGen (Link E) x y

theorem CInv.old {E : List Eq2} {s : Cliques} (h : CInv E s) (m x : Nat) :
    (∃ e ∈ s.cls m, x = e.v0 ∨ x = e.v1) ↔ s.nClique x = some m := by
  constructor
  · rintro ⟨e, he, rfl | rfl⟩
    · exact (h.sub m e he).2.2.1
    · exact (h.sub m e he).2.2.2
  · intro hx; exact (h.var x m hx).2

/-- The clique of the equation. -/
def theClique (s : Cliques) (e : Eq2) : Nat :=
  match s.nClique e.v1, s.nClique e.v0 with | some m, _ => m | none, some m => m | none, none => s.size

theorem joinVar_keep {k : Nat} {s : Cliques} {v : Nat} (h : s.nClique v = none ∨ s.nClique v = some k) :
    joinVar k s v = { s with nClique := fun x => if x = v then some k else s.nClique x } := by
  unfold joinVar
  rcases h with h | h
  · rw [h]
  · rw [h]; dsimp only; rw [if_pos rfl]

theorem joinVar_merge {k m : Nat} {s : Cliques} {v : Nat} (h : s.nClique v = some m) (hm : m ≠ k) :
    joinVar k s v = { s with
        nClique := fun x => if x = v ∨ ∃ e ∈ s.cls m, x = e.v0 ∨ x = e.v1 then some k else s.nClique x
        cls := fun j => if j = k then s.cls k ++ s.cls m else if j = m then [] else s.cls j } := by
  unfold joinVar
  rw [h]; dsimp only; rw [if_neg hm]

/-- The result of `put2VarsConnection` at once. -/
theorem put2_eq {E : List Eq2} {s s' : Cliques} {e : Eq2} (h : CInv E s) (hne : e.v0 ≠ e.v1) (hp : put2 s e = some s') :
    (∀ x, s'.nClique x = if x = e.v0 ∨ x = e.v1 ∨ (s.nClique x ≠ none ∧ s.nClique x = s.nClique e.v0) then some (theClique s e)
      else s.nClique x) ∧
    (∀ j f, f ∈ s'.cls j ↔ if j = theClique s e then f = e ∨ f ∈ s.cls j ∨ ∃ m, s.nClique e.v0 = some m ∧ f ∈ s.cls m
      else f ∈ s.cls j ∧ s.nClique e.v0 ≠ some j) ∧ s'.size = max s.size (theClique s e + 1) := by
  unfold put2 at hp
  rw [if_neg hne] at hp
  change some (joinVar (theClique s e) (joinVar (theClique s e) ⟨s.nClique, fun j => if j = theClique s e then s.cls (theClique s e) ++ [e] else s.cls j,
    max s.size (theClique s e + 1)⟩ e.v0) e.v1) = some s' at hp
  have hp := (Option.some.inj hp).symm
  have hk : theClique s e = match s.nClique e.v1, s.nClique e.v0 with | some m, _ => m | none, some m => m | none, none => s.size := rfl
  generalize theClique s e = k at *
  -- without merging
  have keep : (s.nClique e.v0 = none ∨ s.nClique e.v0 = some k) → (s.nClique e.v1 = none ∨ s.nClique e.v1 = some k) →
      (∀ x, s'.nClique x = if x = e.v0 ∨ x = e.v1 ∨ (s.nClique x ≠ none ∧ s.nClique x = s.nClique e.v0) then some k
        else s.nClique x) ∧
      (∀ j f, f ∈ s'.cls j ↔ if j = k then f = e ∨ f ∈ s.cls j ∨ ∃ m, s.nClique e.v0 = some m ∧ f ∈ s.cls m
        else f ∈ s.cls j ∧ s.nClique e.v0 ≠ some j) ∧ s'.size = max s.size (k + 1) := by
    intro g0 g1
    rw [joinVar_keep (s := ⟨s.nClique, fun j => if j = k then s.cls k ++ [e] else s.cls j, max s.size (k + 1)⟩) g0, joinVar_keep (by dsimp only; rw [if_neg hne.symm]; exact g1)] at hp
    subst hp
    refine ⟨fun x => ?_, fun j f => ?_, rfl⟩
    · dsimp only
      by_cases hx1 : x = e.v1
      · rw [if_pos hx1, if_pos (.inr (.inl hx1))]
      · rw [if_neg hx1]
        by_cases hx0 : x = e.v0
        · rw [if_pos hx0, if_pos (.inl hx0)]
        · rw [if_neg hx0]
          by_cases hc : s.nClique x ≠ none ∧ s.nClique x = s.nClique e.v0
          · rw [if_pos (.inr (.inr hc))]
            rcases g0 with g0 | g0
            · exact absurd (hc.2.trans g0) hc.1
            · exact hc.2.trans g0
          · rw [if_neg (by rintro (h | h | h); exacts [hx0 h, hx1 h, hc h])]
    · dsimp only
      by_cases hj : j = k
      · rw [if_pos hj, if_pos hj, List.mem_append, List.mem_singleton, hj]
        constructor
        · rintro (h | h)
          · exact .inr (.inl h)
          · exact .inl h
        · rintro (h | h | ⟨m, hm, h⟩)
          · exact .inr h
          · exact .inl h
          · rcases g0 with g0 | g0
            · rw [g0] at hm; simp at hm
            · rw [g0] at hm; cases hm; exact .inl h
      · rw [if_neg hj, if_neg hj]
        refine ⟨fun h => ⟨h, fun hc => ?_⟩, fun h => h.1⟩
        rcases g0 with g0 | g0
        · rw [g0] at hc; simp at hc
        · rw [g0] at hc; exact hj (Option.some.inj hc).symm
  rcases Option.eq_none_or_eq_some (s.nClique e.v1) with h1 | ⟨m1, h1⟩
  · rw [h1] at hk
    rcases Option.eq_none_or_eq_some (s.nClique e.v0) with h0 | ⟨m0, h0⟩
    · exact keep (.inl h0) (.inl h1)
    · rw [h0] at hk
      dsimp only at hk
      exact keep (.inr (by rw [h0, hk])) (.inl h1)
  · rw [h1] at hk
    dsimp only at hk
    subst hk
    rcases Option.eq_none_or_eq_some (s.nClique e.v0) with h0 | ⟨m0, h0⟩
    · exact keep (.inl h0) (.inr h1)
    · simp only [h0]
      by_cases hm : m0 = k
      · have := keep (.inr (by rw [h0, hm])) (.inr h1)
        simpa only [h0] using this
      · rw [joinVar_merge (s := ⟨s.nClique, fun j => if j = k then s.cls k ++ [e] else s.cls j, max s.size (k + 1)⟩) h0 hm, joinVar_keep (by
          dsimp only
          right
          simp only [if_neg hm, h1, ite_self])] at hp
        subst hp
        refine ⟨fun x => ?_, fun j f => ?_, rfl⟩
        · dsimp only
          simp only [if_neg hm, h.old m0 x]
          by_cases hx1 : x = e.v1
          · rw [if_pos hx1, if_pos (.inr (.inl hx1))]
          · rw [if_neg hx1]
            by_cases hc : x = e.v0 ∨ s.nClique x = some m0
            · rw [if_pos hc, if_pos]
              rcases hc with hc | hc
              · exact .inl hc
              · exact .inr (.inr ⟨by rw [hc]; simp, hc⟩)
            · rw [if_neg hc, if_neg]
              rintro (h | h | h)
              · exact hc (.inl h)
              · exact hx1 h
              · exact hc (.inr h.2)
        · dsimp only
          simp only [if_neg hm]
          by_cases hj : j = k
          · rw [if_pos hj, if_pos hj]
            simp only [if_true, List.mem_append, List.mem_singleton, hj, Option.some.injEq]
            constructor
            · rintro ((h | h) | h)
              · exact .inr (.inl h)
              · exact .inl h
              · exact .inr (.inr ⟨m0, rfl, h⟩)
            · rintro (h | h | ⟨m, rfl, h⟩)
              · exact .inl (.inr h)
              · exact .inl (.inl h)
              · exact .inr h
          · by_cases hj0 : j = m0
            · simp [hj, hj0]
              intro hc; exact absurd hc hm
            · simp [hj, hj0, Ne.symm hj0]

theorem put2_inv {E : List Eq2} {s s' : Cliques} {e : Eq2} (h : CInv E s) (hp : put2 s e = some s') : CInv (E ++ [e]) s' := by
  have mono : ∀ x y, Relation.EqvGen (Link E) x y → Relation.EqvGen (Link (E ++ [e])) x y := by
    intro x y hxy
    induction hxy with
    | rel a b h => obtain ⟨f, hf, hab⟩ := h; exact .rel _ _ ⟨f, by simp [hf], hab⟩
    | refl a => exact .refl _
    | symm a b _ ih => exact ih.symm
    | trans a b c _ _ ih1 ih2 => exact ih1.trans _ _ _ ih2
  by_cases hne : e.v0 = e.v1
  · unfold put2 at hp
    rw [if_pos hne] at hp
    split at hp
    · cases hp
      refine ⟨fun k f hf => ?_, fun f hf hd => ?_, h.var, fun x y k hx hy => mono x y (h.conn x y k hx hy)⟩
      · have := h.sub k f hf; exact ⟨by simp [this.1], this.2⟩
      · rcases List.mem_append.mp hf with hf | hf
        · exact h.all f hf hd
        · rw [List.mem_singleton] at hf; subst hf; exact absurd hne hd
    · simp at hp
  obtain ⟨hn, hc, hs⟩ := put2_eq h hne hp
  -- the clique of the equation is that of one of its variables
  have hk : ∀ x, s.nClique x = some (theClique s e) → s.nClique x = s.nClique e.v0 ∨ s.nClique x = s.nClique e.v1 := by
    intro x hx
    unfold theClique at hx
    cases h1 : s.nClique e.v1 with
    | some m1 => rw [h1] at hx; dsimp only at hx; exact .inr hx
    | none =>
      rw [h1] at hx
      cases h0 : s.nClique e.v0 with
      | some m0 => rw [h0] at hx; dsimp only at hx; exact .inl hx
      | none =>
        rw [h0] at hx
        dsimp only at hx
        exact absurd (h.var x _ hx).1 (lt_irrefl _)
  have hk1 : ∀ m, s.nClique e.v1 = some m → m = theClique s e := by
    intro m hm; unfold theClique; rw [hm]
  have hn0 : s'.nClique e.v0 = some (theClique s e) := by rw [hn, if_pos (.inl rfl)]
  have hn1 : s'.nClique e.v1 = some (theClique s e) := by rw [hn, if_pos (.inr (.inl rfl))]
  have hnk : ∀ x, s.nClique x = some (theClique s e) → s'.nClique x = some (theClique s e) := by
    intro x hx
    rw [hn]; split
    · rfl
    · exact hx
  -- the variables of the clique are connected to the first variable of the equation
  have hconn : ∀ x, s'.nClique x = some (theClique s e) → Relation.EqvGen (Link (E ++ [e])) x e.v0 := by
    have hedge : Relation.EqvGen (Link (E ++ [e])) e.v1 e.v0 :=
      (Relation.EqvGen.rel _ _ ⟨e, by simp, rfl, rfl⟩).symm
    intro x hx
    have case0 : s.nClique x ≠ none → s.nClique x = s.nClique e.v0 → Relation.EqvGen (Link (E ++ [e])) x e.v0 := by
      intro h1 h2
      obtain ⟨m, hm⟩ := Option.ne_none_iff_exists'.mp h1
      exact mono _ _ (h.conn x e.v0 m hm (h2 ▸ hm))
    rw [hn] at hx
    split at hx
    · rename_i hcase
      rcases hcase with rfl | rfl | hcase
      · exact Relation.EqvGen.refl _
      · exact hedge
      · exact case0 hcase.1 hcase.2
    · rcases hk x hx with h2 | h2
      · exact case0 (by rw [hx]; simp) h2
      · exact (mono _ _ (h.conn x e.v1 _ hx (h2 ▸ hx))).trans _ _ _ hedge
  refine ⟨fun k f hf => ?_, fun f hf hd => ?_, fun x k hx => ?_, fun x y k hx hy => ?_⟩
  · rw [hc] at hf
    by_cases hj : k = theClique s e
    · rw [if_pos hj] at hf
      subst hj
      rcases hf with rfl | hf | ⟨m, hm, hf⟩
      · exact ⟨by simp, hne, hn0, hn1⟩
      · have := h.sub _ f hf
        exact ⟨by simp [this.1], this.2.1, hnk _ this.2.2.1, hnk _ this.2.2.2⟩
      · have := h.sub _ f hf
        refine ⟨by simp [this.1], this.2.1, ?_, ?_⟩
        · rw [hn, if_pos (.inr (.inr ⟨by rw [this.2.2.1]; simp, by rw [this.2.2.1, hm]⟩))]
        · rw [hn, if_pos (.inr (.inr ⟨by rw [this.2.2.2]; simp, by rw [this.2.2.2, hm]⟩))]
    · rw [if_neg hj] at hf
      have := h.sub k f hf.1
      have stay : ∀ x, s.nClique x = some k → s'.nClique x = some k := by
        intro x hx
        rw [hn, if_neg, hx]
        rintro (rfl | rfl | h2)
        · exact hf.2 hx
        · exact hj (hk1 k hx)
        · exact hf.2 (h2.2 ▸ hx)
      exact ⟨by simp [this.1], this.2.1, stay _ this.2.2.1, stay _ this.2.2.2⟩
  · rcases List.mem_append.mp hf with hf | hf
    · obtain ⟨j, hj⟩ := h.all f hf hd
      by_cases hjk : j = theClique s e
      · exact ⟨j, by rw [hc, if_pos hjk]; exact .inr (.inl hj)⟩
      · by_cases h0 : s.nClique e.v0 = some j
        · exact ⟨theClique s e, by rw [hc, if_pos rfl]; exact .inr (.inr ⟨j, h0, hj⟩)⟩
        · exact ⟨j, by rw [hc, if_neg hjk]; exact ⟨hj, h0⟩⟩
    · rw [List.mem_singleton] at hf
      exact ⟨theClique s e, by rw [hc, if_pos rfl]; exact .inl hf⟩
  · rw [hs]
    rw [hn] at hx
    split at hx
    · rename_i hcase
      cases hx
      refine ⟨by omega, ?_⟩
      rcases hcase with rfl | rfl | hcase
      · exact ⟨e, by rw [hc, if_pos rfl]; exact .inl rfl, .inl rfl⟩
      · exact ⟨e, by rw [hc, if_pos rfl]; exact .inl rfl, .inr rfl⟩
      · obtain ⟨m, hm⟩ := Option.ne_none_iff_exists'.mp hcase.1
        obtain ⟨f, hf, hv⟩ := (h.var x m hm).2
        exact ⟨f, by rw [hc, if_pos rfl]; exact .inr (.inr ⟨m, hcase.2 ▸ hm, hf⟩), hv⟩
    · rename_i hcase
      obtain ⟨hlt, f, hf, hv⟩ := h.var x k hx
      refine ⟨by omega, f, ?_, hv⟩
      rw [hc]
      split
      · exact .inr (.inl hf)
      · refine ⟨hf, fun h0 => hcase (.inr (.inr ⟨by rw [hx]; simp, by rw [hx, h0]⟩))⟩
  · by_cases hkk : k = theClique s e
    · subst hkk
      exact (hconn x hx).trans _ _ _ (hconn y hy).symm
    · have back : ∀ z, s'.nClique z = some k → s.nClique z = some k := by
        intro z hz
        rw [hn] at hz
        split at hz
        · cases hz; exact absurd rfl hkk
        · exact hz
      exact mono _ _ (h.conn x y k (back x hx) (back y hy))

/-- All the equations, one after the other. -/
theorem cliques_ok (eqs : List Eq2) {s : Cliques} (h : eqs.foldlM put2 Cliques.empty = some s) : CInv eqs s := by
  have key : ∀ (l E : List Eq2) (s0 : Cliques), CInv E s0 → l.foldlM put2 s0 = some s → CInv (E ++ l) s := by
    intro l
    induction l with
    | nil => intro E s0 h0 h; cases h; simpa using h0
    | cons e t ih =>
      intro E s0 h0 h
      rw [List.foldlM_cons] at h
      obtain ⟨s1, h1, h2⟩ := Option.bind_eq_some_iff.mp h
      have := ih (E ++ [e]) s1 (put2_inv h0 h1) h2
      simpa using this
  have := key eqs [] Cliques.empty ⟨by simp [Cliques.empty], by simp, by simp [Cliques.empty], by simp [Cliques.empty]⟩ h
  simpa using this

end MZ.Mip
