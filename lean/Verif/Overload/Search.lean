import Verif.Overload.Order
/-!
# Registration and search
-/
namespace MZ
namespace Overload
open Types

/-- Tables that arise when the functions of the list are declared one after the other (lib/typecheck.cpp 4912–4913 and 5142–5143:
`registerFn` followed by `sortFn`). -/
inductive Built : List Fn → List Entry → Prop
  | nil : Built [] []
  | step {fs v f v' v''} : Built fs v → registerFn v f = some v' → SortOf v' v'' → Built (fs ++ [f]) v''

theorem regLoop_cases (f : Fn) : ∀ (v pre v' : List Entry), regLoop f pre v = some v' →
    ((∀ i ∈ v, regStep f i = .next) ∧ v' = addEntry f.entry (pre ++ v)) ∨
    (∃ i ∈ v, regStep f i = .stop ∧ v' = pre ++ v) ∨
    (∃ l i r, v = l ++ i :: r ∧ (∀ j ∈ l, regStep f j = .next) ∧ regStep f i = .replace ∧ v' = pre ++ l ++ f.entry :: r)
  | [], pre, v', h => by
    left
    simp only [regLoop, Option.some.injEq] at h
    simp [← h]
  | i :: v, pre, v', h => by
    rw [regLoop] at h
    cases hs : regStep f i with
    | next =>
      rw [hs] at h
      rcases regLoop_cases f v (pre ++ [i]) v' h with ⟨h1, h2⟩ | ⟨j, h1, h2, h3⟩ | ⟨l, j, r, h1, h2, h3, h4⟩
      · left
        refine ⟨?_, by simpa using h2⟩
        intro j hj
        rcases List.mem_cons.1 hj with rfl | hj
        · exact hs
        · exact h1 j hj
      · right; left
        exact ⟨j, .tail _ h1, h2, by simpa using h3⟩
      · right; right
        refine ⟨i :: l, j, r, by simp [h1], ?_, h3, by simpa using h4⟩
        intro k hk
        rcases List.mem_cons.1 hk with rfl | hk
        · exact hs
        · exact h2 k hk
    | stop =>
      rw [hs] at h
      simp only [Option.some.injEq] at h
      exact .inr (.inl ⟨i, .head _, hs, h.symm⟩)
    | replace =>
      rw [hs] at h
      simp only [Option.some.injEq] at h
      exact .inr (.inr ⟨[], i, v, rfl, by simp, hs, by simpa using h.symm⟩)
    | error =>
      rw [hs] at h
      simp at h

theorem tysEq_length {a b : List Ty} (h : tysEq a b = true) : a.length = b.length := by
  unfold tysEq at h
  simp only [Bool.and_eq_true, beq_iff_eq] at h
  exact h.1

theorem tys_length (f : Fn) : f.tys.length = f.params.length := by simp [Fn.tys]

theorem regStep_next {f : Fn} {i : Entry} (h : regStep f i = .next) :
    i.fi.id ≠ f.id ∧ (tysEq i.fi.tys f.tys = false ∨ (i.fi.body = true ∧ f.body = true ∧ sameNames i.fi f = false)) := by
  unfold regStep at h
  split at h
  · simp at h
  · rename_i g0
    refine ⟨g0, ?_⟩
    split at h
    · simp at h
    · split at h
      · split at h
        · split at h
          · rename_i g
            split at h
            · rename_i g'
              simp only [Bool.and_eq_true] at g
              exact .inr ⟨g.1, g.2, by simpa using g'⟩
            · simp at h
          · split at h <;> simp at h
        · rename_i g
          exact .inl (by simpa using g)
      · rename_i g
        left
        by_contra h'
        have := tysEq_length (by simpa using h')
        rw [tys_length, tys_length] at this
        exact g this

theorem regStep_stop {f : Fn} {i : Entry} (h : regStep f i = .stop) :
    i.fi.id = f.id ∨ (tysEq i.fi.tys f.tys = true ∧ f.body = false) := by
  unfold regStep at h
  split at h
  · rename_i g; exact .inl g
  · split at h
    · simp at h
    · split at h
      · split at h
        · rename_i g
          split at h
          · split at h <;> simp at h
          · split at h
            · simp at h
            · rename_i g'
              exact .inr ⟨g, by simpa using g'⟩
        · split at h <;> simp at h
      · simp at h

theorem regStep_replace {f : Fn} {i : Entry} (h : regStep f i = .replace) :
    i.fi.id ≠ f.id ∧ tysEq i.fi.tys f.tys = true ∧ i.fi.body = false ∧ f.body = true := by
  unfold regStep at h
  split at h
  · simp at h
  · rename_i g0
    split at h
    · simp at h
    · split at h
      · split at h
        · rename_i g
          split at h
          · split at h <;> simp at h
          · rename_i g1
            split at h
            · rename_i g'
              refine ⟨g0, g, ?_, g'⟩
              rw [g'] at g1
              simpa using g1
            · simp at h
        · split at h <;> simp at h
      · simp at h

theorem addEntry_append (fe : Entry) : ∀ (v : List Entry), (∀ e ∈ v, ¬ (tysEq e.t fe.t = true ∧ sameNames e.fi fe.fi = true)) →
    addEntry fe v = v ++ [fe]
  | [], _ => rfl
  | e :: v, h => by
    rw [addEntry, if_neg, addEntry_append fe v (fun e he => h e (.tail _ he))]
    · rfl
    · have := h e (.head _)
      simpa using this

/-- Two declarations have the same signature: the types of their parameters are equal up to enumerations. -/
def SameSig (f g : Fn) : Prop := tysEq f.tys g.tys = true

/-- The identity of a function determines it. -/
def Ids (fs : List Fn) : Prop := ∀ f ∈ fs, ∀ g ∈ fs, f.id = g.id → f = g

/-- What registration makes of a table whose entries come from the declarations. -/
theorem registerFn_cases {v v' : List Entry} {f : Fn} (hv : ∀ e ∈ v, e = e.fi.entry) (h : registerFn v f = some v') :
    (v' = v ++ [f.entry] ∧ ∀ e ∈ v, e.fi.id ≠ f.id ∧ (tysEq e.fi.tys f.tys = false ∨ (e.fi.body = true ∧ f.body = true))) ∨
    (v' = v ∧ ∃ e ∈ v, e.fi.id = f.id ∨ (tysEq e.fi.tys f.tys = true ∧ f.body = false)) ∨
    (∃ l e r, v = l ++ e :: r ∧ v' = l ++ f.entry :: r ∧ tysEq e.fi.tys f.tys = true ∧ e.fi.body = false ∧ f.body = true) := by
  rcases regLoop_cases f v [] v' h with ⟨h1, h2⟩ | ⟨i, h1, h2, h3⟩ | ⟨l, i, r, h1, h2, h3, h4⟩
  · left
    rw [List.nil_append, addEntry_append] at h2
    · refine ⟨h2, fun e he => ?_⟩
      obtain ⟨g1, g2⟩ := regStep_next (h1 e he)
      exact ⟨g1, g2.imp id fun g => ⟨g.1, g.2.1⟩⟩
    · rintro e he ⟨g1, g2⟩
      obtain ⟨-, g3⟩ := regStep_next (h1 e he)
      rw [hv e he] at g1
      rcases g3 with g3 | ⟨-, -, g3⟩
      · have : tysEq e.fi.tys f.tys = true := g1
        rw [g3] at this
        cases this
      · have : sameNames e.fi f = true := g2
        rw [g3] at this
        cases this
  · right; left
    exact ⟨by simpa using h3, i, h1, regStep_stop h2⟩
  · right; right
    obtain ⟨-, g2, g3, g4⟩ := regStep_replace h3
    exact ⟨l, i, r, h1, by simpa using h4, g2, g3, g4⟩

theorem tysEq_refl {a : List Ty} : tysEq a a = true := by
  induction a with
  | nil => rfl
  | cons x a ih =>
    unfold tysEq at *
    simp only [List.length_cons, List.zip_cons_cons, List.all_cons, Bool.and_eq_true, beq_iff_eq] at *
    exact ⟨trivial, by simp [Ty.eq], ih.2⟩

theorem tysEq_symm : ∀ {a b : List Ty}, tysEq a b = true → tysEq b a = true
  | [], [], h => h
  | [], _ :: _, h => by simp [tysEq] at h
  | _ :: _, [], h => by simp [tysEq] at h
  | x :: a, y :: b, h => by
    have ih := tysEq_symm (a := a) (b := b)
    unfold tysEq at *
    simp only [List.length_cons, List.zip_cons_cons, List.all_cons, Bool.and_eq_true, beq_iff_eq, Nat.add_right_cancel_iff] at *
    obtain ⟨h1, h2, h3⟩ := h
    obtain ⟨i1, i2⟩ := ih ⟨h1, h3⟩
    refine ⟨i1, ?_, i2⟩
    unfold Ty.eq at *
    simp only [Bool.and_eq_true, beq_iff_eq, Bool.or_eq_true, Bool.not_eq_true', Ty.structBT] at *
    obtain ⟨⟨⟨⟨⟨e1, e2⟩, e3⟩, e4⟩, e5⟩, e6⟩ := h2
    refine ⟨⟨⟨⟨⟨e1.symm, e2.symm⟩, e3.symm⟩, e4.symm⟩, e5.symm⟩, ?_⟩
    rw [← e2]
    exact e6.imp id Eq.symm

theorem ty_eq_trans {a b c : Ty} (h1 : a.eq b = true) (h2 : b.eq c = true) : a.eq c = true := by
  unfold Ty.eq at *
  simp only [Bool.and_eq_true, beq_iff_eq, Bool.or_eq_true, Bool.not_eq_true', Ty.structBT] at *
  obtain ⟨⟨⟨⟨⟨e1, e2⟩, e3⟩, e4⟩, e5⟩, e6⟩ := h1
  obtain ⟨⟨⟨⟨⟨d1, d2⟩, d3⟩, d4⟩, d5⟩, d6⟩ := h2
  refine ⟨⟨⟨⟨⟨e1.trans d1, e2.trans d2⟩, e3.trans d3⟩, e4.trans d4⟩, e5.trans d5⟩, ?_⟩
  rcases e6 with e6 | e6
  · exact .inl e6
  · rcases d6 with d6 | d6
    · rw [← e2] at d6; exact .inl d6
    · exact .inr (e6.trans d6)

theorem tysEq_trans : ∀ {a b c : List Ty}, tysEq a b = true → tysEq b c = true → tysEq a c = true
  | [], [], _, _, h => h
  | [], _ :: _, _, h, _ => by simp [tysEq] at h
  | _ :: _, [], _, h, _ => by simp [tysEq] at h
  | _ :: _, _ :: _, [], _, h => by simp [tysEq] at h
  | x :: a, y :: b, z :: c, h, h' => by
    have ih := tysEq_trans (a := a) (b := b) (c := c)
    unfold tysEq at *
    simp only [List.length_cons, List.zip_cons_cons, List.all_cons, Bool.and_eq_true, beq_iff_eq, Nat.add_right_cancel_iff] at *
    obtain ⟨h1, h2, h3⟩ := h
    obtain ⟨k1, k2, k3⟩ := h'
    obtain ⟨i1, i2⟩ := ih ⟨h1, h3⟩ ⟨k1, k3⟩
    exact ⟨i1, ty_eq_trans h2 k2, i2⟩

/-- Facts about every table built from declarations. -/
structure TInv (fs : List Fn) (v : List Entry) : Prop where
  src : ∀ e ∈ v, e = e.fi.entry ∧ e.fi ∈ fs
  body : ∀ f ∈ fs, f.body = true → f.entry ∈ v
  sig : ∀ f ∈ fs, ∃ e ∈ v, SameSig e.fi f
  /-- an entry without a body is the only one of its signature -/
  uniq : v.Pairwise fun e e' => SameSig e.fi e'.fi → e.fi.body = true ∧ e'.fi.body = true

theorem TInv.perm {fs : List Fn} {v v' : List Entry} (h : TInv fs v) (hp : v'.Perm v) : TInv fs v' :=
  ⟨fun e he => h.src e (hp.subset he), fun f hf hb => hp.symm.subset (h.body f hf hb),
    fun f hf => (h.sig f hf).imp fun _ g => ⟨hp.symm.subset g.1, g.2⟩,
    (hp.pairwise_iff (by
      intro a b hab hs
      exact (hab (tysEq_symm hs)).symm)).2 h.uniq⟩

theorem TInv.step {fs : List Fn} {v v' : List Entry} {f : Fn} (hids : Ids (fs ++ [f])) (h : TInv fs v) (hr : registerFn v f = some v') :
    TInv (fs ++ [f]) v' := by
  have hff : f ∈ fs ++ [f] := by simp
  have sub : ∀ {g : Fn}, g ∈ fs → g ∈ fs ++ [f] := fun hg => List.mem_append_left _ hg
  rcases registerFn_cases (fun e he => (h.src e he).1) hr with ⟨rfl, h1⟩ | ⟨rfl, e, he, h1⟩ | ⟨l, e, r, rfl, rfl, h1, h2, h3⟩
  · refine ⟨?_, ?_, ?_, ?_⟩
    · intro e he
      rcases List.mem_append.1 he with he | he
      · exact ⟨(h.src e he).1, sub (h.src e he).2⟩
      · rw [List.mem_singleton.1 he]; exact ⟨rfl, hff⟩
    · intro g hg hb
      rcases List.mem_append.1 hg with hg | hg
      · exact List.mem_append_left _ (h.body g hg hb)
      · rw [List.mem_singleton.1 hg]; simp
    · intro g hg
      rcases List.mem_append.1 hg with hg | hg
      · obtain ⟨e, h1, h2⟩ := h.sig g hg
        exact ⟨e, List.mem_append_left _ h1, h2⟩
      · rw [List.mem_singleton.1 hg]; exact ⟨f.entry, by simp, tysEq_refl⟩
    · rw [List.pairwise_append]
      refine ⟨h.uniq, List.pairwise_singleton _ _, ?_⟩
      intro a ha b hb hs
      rw [List.mem_singleton.1 hb] at hs ⊢
      rcases (h1 a ha).2 with g | g
      · have : tysEq a.fi.tys f.tys = true := hs
        rw [g] at this; cases this
      · exact g
  · have hb : f.body = true → f.entry ∈ v' := by
      intro hb
      rcases h1 with h1 | h1
      · obtain ⟨g1, g2⟩ := h.src e he
        have := hids e.fi (sub g2) f hff h1
        rw [this] at g1
        exact g1 ▸ he
      · rw [hb] at h1; exact absurd h1.2 (by decide)
    refine ⟨fun e he => ⟨(h.src e he).1, sub (h.src e he).2⟩, ?_, ?_, h.uniq⟩
    · intro g hg hgb
      rcases List.mem_append.1 hg with hg | hg
      · exact h.body g hg hgb
      · rw [List.mem_singleton.1 hg] at hgb ⊢; exact hb hgb
    · intro g hg
      rcases List.mem_append.1 hg with hg | hg
      · exact h.sig g hg
      · rw [List.mem_singleton.1 hg]
        refine ⟨e, he, ?_⟩
        rcases h1 with h1 | h1
        · rw [hids e.fi (sub (h.src e he).2) f hff h1]; exact tysEq_refl
        · exact h1.1
  · have hu := h.uniq
    rw [List.pairwise_append, List.pairwise_cons] at hu
    obtain ⟨u1, ⟨u2, u3⟩, u4⟩ := hu
    refine ⟨?_, ?_, ?_, ?_⟩
    · intro g hg
      rcases List.mem_append.1 hg with hg | hg
      · have := h.src g (List.mem_append_left _ hg)
        exact ⟨this.1, sub this.2⟩
      · rcases List.mem_cons.1 hg with rfl | hg
        · exact ⟨rfl, hff⟩
        · have := h.src g (List.mem_append_right _ (.tail _ hg))
          exact ⟨this.1, sub this.2⟩
    · intro g hg hb
      rcases List.mem_append.1 hg with hg | hg
      · have := h.body g hg hb
        rcases List.mem_append.1 this with this | this
        · exact List.mem_append_left _ this
        · rcases List.mem_cons.1 this with this | this
          · have : e.fi = g := by rw [← this]; rfl
            rw [this, hb] at h2; cases h2
          · exact List.mem_append_right _ (.tail _ this)
      · rw [List.mem_singleton.1 hg]; simp
    · intro g hg
      rcases List.mem_append.1 hg with hg | hg
      · obtain ⟨e', g1, g2⟩ := h.sig g hg
        rcases List.mem_append.1 g1 with g1 | g1
        · exact ⟨e', List.mem_append_left _ g1, g2⟩
        · rcases List.mem_cons.1 g1 with rfl | g1
          · exact ⟨f.entry, by simp, tysEq_trans (tysEq_symm h1) g2⟩
          · exact ⟨e', List.mem_append_right _ (.tail _ g1), g2⟩
      · rw [List.mem_singleton.1 hg]; exact ⟨f.entry, by simp, tysEq_refl⟩
    · rw [List.pairwise_append, List.pairwise_cons]
      refine ⟨u1, ⟨?_, u3⟩, ?_⟩
      · intro b hb hs
        have := u2 b hb (tysEq_trans h1 hs)
        rw [h2] at this; exact absurd this.1 (by decide)
      · intro a ha b hb hs
        rcases List.mem_cons.1 hb with rfl | hb
        · have := u4 a ha e (.head _) (tysEq_trans hs (tysEq_symm h1))
          rw [h2] at this; exact absurd this.2 (by decide)
        · exact u4 a ha b (.tail _ hb) hs

theorem built_inv {fs : List Fn} {v : List Entry} (h : Built fs v) (hids : Ids fs) : TInv fs v := by
  induction h with
  | nil => exact ⟨by simp, by simp, by simp, .nil⟩
  | @step fs v f v' v'' hb hr hs ih =>
    have := ih fun a ha b hb => hids a (List.mem_append_left _ ha) b (List.mem_append_left _ hb)
    exact (this.step hids hr).perm hs.1

/-- The requirement `NoMix` for a list of declarations. -/
def NoMixFns (fs : List Fn) : Prop := NoMix (fs.map Fn.entry)

theorem TInv.noMix {fs : List Fn} {v : List Entry} (h : TInv fs v) (hm : NoMixFns fs) : NoMix v := by
  have mem : ∀ e ∈ v, e ∈ fs.map Fn.entry := by
    intro e he
    obtain ⟨h1, h2⟩ := h.src e he
    rw [h1]; exact List.mem_map_of_mem h2
  exact ⟨fun e he => hm.1 e (mem e he), fun e he e' he' => hm.2 e (mem e he) e' (mem e' he')⟩

theorem built_sorted {fs : List Fn} {v : List Entry} (h : Built fs v) (hids : Ids fs) (hm : NoMixFns fs) :
    v.Pairwise fun a b => a.key ≤ b.key := by
  cases h with
  | nil => exact .nil
  | @step fs v f v' v'' hb hr hs =>
    have i1 := built_inv hb fun a ha b hb => hids a (List.mem_append_left _ ha) b (List.mem_append_left _ hb)
    exact hs.sorted ((i1.step hids hr).noMix hm)

end Overload
end MZ
