import Verif.GC.MarkLemmas
/-!
# The marking loops terminate and mark exactly what they should
-/
namespace MZ
namespace GCMark
open GCHeap (Addr)

def IsVd (H : Objs) (a : Addr) : Prop := ∃ h t i e f, H a = some (.expr h (.varDecl t i e f))

/-- Effect of marking: everything asked for is marked, whatever is newly marked is in the region and has all its
members marked, and the second bit is set for the newly marked declarations. -/
structure Post (H : Objs) (G : Addr → Prop) (s s' : Bits) (tgt : List Addr) : Prop where
  mono : ∀ a, s.m a = true → s'.m a = true
  tgt : ∀ a ∈ tgt, s'.m a = true
  sound : ∀ a, s'.m a = true → s.m a = true ∨ G a
  closed : ∀ a, s'.m a = true → s.m a = false → ∀ b, Keeps H a b → s'.m b = true
  vd : ∀ a, s'.vd a = true ↔ s.vd a = true ∨ (s'.m a = true ∧ s.m a = false ∧ IsVd H a)

section
variable {H : Objs} {G : Addr → Prop}

theorem Post.refl (s : Bits) : Post H G s s [] :=
  ⟨fun _ h => h, by simp, fun _ h => .inl h, by intro a h h'; rw [h] at h'; simp at h', by
    intro a
    constructor
    · exact .inl
    · rintro (h | ⟨h, h', _⟩)
      · exact h
      · rw [h] at h'; simp at h'⟩

theorem Post.trans {s s1 s2 : Bits} {t1 t2 : List Addr} (p : Post H G s s1 t1) (q : Post H G s1 s2 t2) :
    Post H G s s2 (t1 ++ t2) := by
  refine ⟨fun a h => q.mono a (p.mono a h), ?_, ?_, ?_, ?_⟩
  · intro a ha
    rcases List.mem_append.1 ha with h | h
    · exact q.mono a (p.tgt a h)
    · exact q.tgt a h
  · intro a h
    rcases q.sound a h with h | h
    · exact p.sound a h
    · exact .inr h
  · intro a h h' b k
    by_cases h1 : s1.m a = true
    · exact q.mono b (p.closed a h1 h' b k)
    · exact q.closed a h (by simpa using h1) b k
  · intro a
    rw [q.vd, p.vd]
    constructor
    · rintro ((h | ⟨h1, h2, h3⟩) | ⟨h1, h2, h3⟩)
      · exact .inl h
      · exact .inr ⟨q.mono a h1, h2, h3⟩
      · refine .inr ⟨h1, ?_, h3⟩
        by_contra hc
        rw [p.mono a (by simpa using hc)] at h2
        simp at h2
    · rintro (h | ⟨h1, h2, h3⟩)
      · exact .inl (.inl h)
      · by_cases h4 : s1.m a = true
        · exact .inl (.inr ⟨h4, h2, h3⟩)
        · exact .inr ⟨h1, by simpa using h4, h3⟩

theorem Post.weaken {s s' : Bits} {t t' : List Addr} (p : Post H G s s' t) (h : ∀ a ∈ t', a ∈ t) : Post H G s s' t' :=
  ⟨p.mono, fun a ha => p.tgt a (h a ha), p.sound, p.closed, p.vd⟩

theorem mark_m (s : Bits) (a b : Addr) : (s.mark a).m b = true ↔ b = a ∨ s.m b = true := by
  simp [Bits.mark]

theorem marks_m (l : List Addr) : ∀ (s : Bits) (b : Addr), (s.marks l).m b = true ↔ b ∈ l ∨ s.m b = true := by
  induction l with
  | nil => intro s b; simp [Bits.marks]
  | cons a l ih =>
    intro s b
    have := ih (s.mark a) b
    simp only [Bits.marks, List.foldl_cons] at this ⊢
    rw [this, mark_m, List.mem_cons]
    tauto

theorem marks_vd (l : List Addr) : ∀ (s : Bits), (s.marks l).vd = s.vd := by
  induction l with
  | nil => intro s; rfl
  | cons a l ih =>
    intro s
    have := ih (s.mark a)
    simp only [Bits.marks, List.foldl_cons] at this ⊢
    rw [this]
    rfl

theorem markVd_m (s : Bits) (a : Addr) : (s.markVd a).m = s.m := rfl

theorem markVd_vd (s : Bits) (a b : Addr) : (s.markVd a).vd b = true ↔ b = a ∨ s.vd b = true := by
  simp [Bits.markVd]

/-- Marks on the spot do no harm. -/
theorem now_post (hd : List Addr) {ms : List (Addr × Cls)} (c : Cov H G ms ⟨hd, [], none⟩) (s : Bits) : Post H G s (s.marks hd) hd := by
  refine ⟨?_, ?_, ?_, ?_, ?_⟩
  · intro a h; rw [marks_m]; exact .inr h
  · intro a h; rw [marks_m]; exact .inl h
  · intro a h
    rw [marks_m] at h
    rcases h with h | h
    · exact .inr (c.now a h).1
    · exact .inl h
  · intro a h h' b k
    rw [marks_m] at h
    rcases h with h | h
    · rcases (c.now a h).2.2 b k with z | z
      · rw [marks_m]; exact .inl z
      · simp at z
    · rw [h] at h'; simp at h'
  · intro a
    rw [marks_vd]
    constructor
    · exact .inl
    · rintro (h | ⟨h, h', h3⟩)
      · exact h
      · rw [marks_m] at h
        rcases h with h | h
        · exfalso
          obtain ⟨hh, t, i, e, f, ho⟩ := h3
          exact (c.now a h).2.1 _ ho (by simp [Is])
        · rw [h] at h'; simp at h'

/-- Number of nodes without mark. -/
def todo (D : Finset Addr) (s : Bits) : Nat := (D.filter fun a => s.m a = false).card

theorem todo_mono {D : Finset Addr} {s s' : Bits} (h : ∀ a, s.m a = true → s'.m a = true) : todo D s' ≤ todo D s := by
  unfold todo
  apply Finset.card_le_card
  intro a ha
  rw [Finset.mem_filter] at ha ⊢
  refine ⟨ha.1, ?_⟩
  by_contra hc
  rw [h a (by simpa using hc)] at ha
  simp at ha

theorem todo_lt {D : Finset Addr} {s s' : Bits} (h : ∀ a, s.m a = true → s'.m a = true) {a : Addr} (ha : a ∈ D)
    (h1 : s.m a = false) (h2 : s'.m a = true) : todo D s' < todo D s := by
  unfold todo
  apply Finset.card_lt_card
  rw [Finset.ssubset_iff_of_subset]
  · refine ⟨a, by simp [ha, h1], by simp [h2]⟩
  · intro b hb
    rw [Finset.mem_filter] at hb ⊢
    refine ⟨hb.1, ?_⟩
    by_contra hc
    rw [h b (by simpa using hc)] at hb
    simp at hb

/-- A stack or list of pointers to expressions of the region. -/
def OkS (H : Objs) (G : Addr → Prop) (l : List Ptr) : Prop :=
  ∀ a, Ptr.ref a ∈ l → G a ∧ ∃ o, H a = some o ∧ Is o .expr

def refs (l : List Ptr) : List Addr := (ptrs l).map (·.1)

theorem mem_refs {l : List Ptr} {a : Addr} : a ∈ refs l ↔ .ref a ∈ l := by
  unfold refs
  rw [List.mem_map]
  constructor
  · rintro ⟨x, hx, rfl⟩
    exact (mem_ptrs.1 hx).1
  · intro h
    exact ⟨(a, .expr), mem_ptrs.2 ⟨h, rfl⟩, rfl⟩

/-- `markSeq` works if `markLoop` does. -/
theorem markSeq_ok {D : Finset Addr} {u : Nat} (loop : ∀ s : Bits, todo D s ≤ u → ∀ st, (∀ q ∈ st, q ≠ Ptr.null) → OkS H G st →
      ∃ n s', (∀ k, n ≤ k → markLoop H k s st = .ok s') ∧ Post H G s s' (refs st)) :
    ∀ (l : List Ptr) (s : Bits), todo D s ≤ u → OkS H G l →
      ∃ n s', (∀ k, n ≤ k → markSeq H k s l = .ok s') ∧ Post H G s s' (refs l) := by
  intro l
  induction l with
  | nil =>
    intro s _ _
    refine ⟨1, s, ?_, ?_⟩
    · intro k hk
      obtain ⟨k, rfl⟩ : ∃ j, k = j + 1 := ⟨k - 1, by omega⟩
      simp [markSeq]
    · exact Post.refl s
  | cons p l ih =>
    intro s hs ok
    have okl : OkS H G l := fun a ha => ok a (List.mem_cons_of_mem _ ha)
    cases p with
    | ref a =>
      obtain ⟨n1, s1, e1, p1⟩ := loop s hs [.ref a] (by simp) (by
        intro b hb
        exact ok b (by rw [List.mem_singleton] at hb; rw [hb]; exact List.mem_cons_self))
      obtain ⟨n2, s2, e2, p2⟩ := ih s1 (le_trans (todo_mono p1.mono) hs) okl
      refine ⟨max n1 n2 + 1, s2, ?_, ?_⟩
      · intro k hk
        obtain ⟨k, rfl⟩ : ∃ j, k = j + 1 := ⟨k - 1, by omega⟩
        rw [markSeq, e1 k (by omega), Res.ok_bind, e2 k (by omega)]
      · refine (p1.trans p2).weaken ?_
        intro b hb
        rw [List.mem_append]
        simp only [mem_refs, List.mem_cons, List.not_mem_nil, or_false] at hb ⊢
        exact hb
    | null =>
      obtain ⟨n2, s2, e2, p2⟩ := ih s hs okl
      refine ⟨n2 + 1, s2, ?_, ?_⟩
      · intro k hk
        obtain ⟨k, rfl⟩ : ∃ j, k = j + 1 := ⟨k - 1, by omega⟩
        rw [markSeq, e2 k (by omega)]
        simp
      · refine p2.weaken ?_
        intro b hb
        simpa [mem_refs] using hb
    | val =>
      obtain ⟨n2, s2, e2, p2⟩ := ih s hs okl
      refine ⟨n2 + 1, s2, ?_, ?_⟩
      · intro k hk
        obtain ⟨k, rfl⟩ : ∃ j, k = j + 1 := ⟨k - 1, by omega⟩
        rw [markSeq, e2 k (by omega)]
        simp
      · refine p2.weaken ?_
        intro b hb
        simpa [mem_refs] using hb

/-- `Item::mark` of an item that is not a variable declaration works if `markSeq` does. -/
theorem item_step {D : Finset Addr} (hD : ∀ a, (H a).isSome → a ∈ D) (r : Region H G) {u : Nat}
    (seq : ∀ (l : List Ptr) (s : Bits), todo D s ≤ u → OkS H G l →
      ∃ n s', (∀ k, n ≤ k → markSeq H k s l = .ok s') ∧ Post H G s s' (refs l))
    {s : Bits} (hs : todo D s ≤ u + 1) {a : Addr} {loc : Option Addr} {i : Itm} (ga : G a) (ho : H a = some (.item loc i)) :
    ∃ n s', (∀ k, n ≤ k → markItem H k s a = .ok s') ∧ Post H G s s' [a] := by
  by_cases hm : s.m a = true
  · refine ⟨1, s, ?_, ?_⟩
    · intro k hk
      obtain ⟨k, rfl⟩ : ∃ j, k = j + 1 := ⟨k - 1, by omega⟩
      simp [markItem, hm]
    · have := Post.refl (H := H) (G := G) s
      exact ⟨this.mono, by simpa using hm, this.sound, this.closed, this.vd⟩
  · obtain ⟨d, p, hsc, c⟩ := scanI_ok r (r.okM ga ho)
    have hm' : s.m a = false := by simpa using hm
    have mm : ∀ b, ((s.mark a).marks d).m b = true ↔ b ∈ d ∨ b = a ∨ s.m b = true := by
      intro b; rw [marks_m, mark_m]
    have hmono : ∀ b, s.m b = true → ((s.mark a).marks d).m b = true := fun b hb => (mm b).2 (.inr (.inr hb))
    have hlt : todo D ((s.mark a).marks d) < todo D s :=
      todo_lt hmono (hD a (by rw [ho]; rfl)) hm' ((mm a).2 (.inr (.inl rfl)))
    obtain ⟨n, s', e, q⟩ := seq p ((s.mark a).marks d) (by omega) (by
      intro b hb
      exact (c.push (.ref b) (mem_nn.2 ⟨hb, by simp⟩)).2 b rfl)
    refine ⟨n + 1, s', ?_, ?_⟩
    · intro k hk
      obtain ⟨k, rfl⟩ : ∃ j, k = j + 1 := ⟨k - 1, by omega⟩
      rw [markItem]
      simp only [hm', ho, hsc, Res.ok_bind, Bool.false_eq_true, if_false]
      exact e k (by omega)
    · have hp : ∀ z, Ptr.ref z ∈ nn p → s'.m z = true := by
        intro z hz
        exact q.tgt z (mem_refs.2 (mem_nn.1 hz).1)
      refine ⟨fun b hb => q.mono b (hmono b hb), ?_, ?_, ?_, ?_⟩
      · intro b hb
        rw [List.mem_singleton] at hb
        subst hb
        exact q.mono b ((mm b).2 (.inr (.inl rfl)))
      · intro b hb
        rcases q.sound b hb with h | h
        · rcases (mm b).1 h with h | h | h
          · exact .inr (c.now b h).1
          · exact .inr (h ▸ ga)
          · exact .inl h
        · exact .inr h
      · intro b hb hb' z hz
        by_cases h1 : ((s.mark a).marks d).m b = true
        · rcases (mm b).1 h1 with h | h | h
          · rcases (c.now b h).2.2 z hz with h | h
            · exact q.mono z ((mm z).2 (.inl h))
            · exact hp z h
          · subst h
            obtain ⟨o', ho', cl, hmem⟩ := hz
            rw [ho] at ho'
            cases ho'
            rcases c.cover _ hmem with h | h | h
            · exact q.mono z ((mm z).2 (.inl h))
            · exact hp z h
            · simp at h
          · rw [h] at hb'; simp at hb'
        · exact q.closed b hb (by simpa using h1) z hz
      · intro b
        rw [q.vd, marks_vd]
        constructor
        · rintro (h | ⟨h1, h2, h3⟩)
          · exact .inl h
          · refine .inr ⟨h1, ?_, h3⟩
            by_contra hc
            rw [hmono b (by simpa using hc)] at h2
            simp at h2
        · rintro (h | ⟨h1, h2, h3⟩)
          · exact .inl h
          · refine .inr ⟨h1, ?_, h3⟩
            by_contra hc
            rcases (mm b).1 (by simpa using hc) with h | h | h
            · obtain ⟨hh, t, i', e', f, hob⟩ := h3
              exact (c.now b h).2.1 _ hob (by simp [Is])
            · subst h
              obtain ⟨hh, t, i', e', f, hob⟩ := h3
              rw [ho] at hob
              simp at hob
            · rw [h] at h2; simp at h2

theorem loop_ok {D : Finset Addr} (hD : ∀ a, (H a).isSome → a ∈ D) (r : Region H G) (u : Nat) :
    ∀ s : Bits, todo D s ≤ u → ∀ st, (∀ q ∈ st, q ≠ Ptr.null) → OkS H G st →
      ∃ n s', (∀ k, n ≤ k → markLoop H k s st = .ok s') ∧ Post H G s s' (refs st) := by
  induction u with
  | zero =>
    intro s hs st
    induction st with
    | nil =>
      intro _ _
      refine ⟨1, s, ?_, Post.refl s⟩
      intro k hk
      obtain ⟨k, rfl⟩ : ∃ j, k = j + 1 := ⟨k - 1, by omega⟩
      simp [markLoop]
    | cons p st ih =>
      intro hn ok
      obtain ⟨n, s', e, q⟩ := ih (fun x hx => hn x (List.mem_cons_of_mem _ hx)) (fun a ha => ok a (List.mem_cons_of_mem _ ha))
      refine ⟨n + 1, s', ?_, ?_⟩
      · intro k hk
        obtain ⟨k, rfl⟩ : ∃ j, k = j + 1 := ⟨k - 1, by omega⟩
        cases p with
        | null => exact absurd rfl (hn .null List.mem_cons_self)
        | val => rw [markLoop, e k (by omega)]
        | ref a =>
          have : s.m a = true := by
            by_contra hc
            obtain ⟨_, o, ho, _⟩ := ok a List.mem_cons_self
            have : 0 < todo D s := by
              unfold todo
              rw [Finset.card_pos]
              exact ⟨a, by simp [hD a (by rw [ho]; rfl), hc]⟩
            omega
          rw [markLoop, if_pos this, e k (by omega)]
      · refine ⟨q.mono, ?_, q.sound, q.closed, q.vd⟩
        intro b hb
        rw [mem_refs] at hb
        rcases List.mem_cons.1 hb with h | h
        · subst h
          have : s.m b = true := by
            by_contra hc
            obtain ⟨_, o, ho, _⟩ := ok b List.mem_cons_self
            have : 0 < todo D s := by
              unfold todo
              rw [Finset.card_pos]
              exact ⟨b, by simp [hD b (by rw [ho]; rfl), hc]⟩
            omega
          exact q.mono b this
        · exact q.tgt b (mem_refs.2 h)
  | succ u IH =>
    intro s hs st
    induction st with
    | nil =>
      intro _ _
      refine ⟨1, s, ?_, Post.refl s⟩
      intro k hk
      obtain ⟨k, rfl⟩ : ∃ j, k = j + 1 := ⟨k - 1, by omega⟩
      simp [markLoop]
    | cons p st ih =>
      intro hn ok
      have hn' : ∀ q ∈ st, q ≠ Ptr.null := fun x hx => hn x (List.mem_cons_of_mem _ hx)
      have ok' : OkS H G st := fun a ha => ok a (List.mem_cons_of_mem _ ha)
      cases p with
      | null => exact absurd rfl (hn .null List.mem_cons_self)
      | val =>
        obtain ⟨n, s', e, q⟩ := ih hn' ok'
        refine ⟨n + 1, s', ?_, ?_⟩
        · intro k hk
          obtain ⟨k, rfl⟩ : ∃ j, k = j + 1 := ⟨k - 1, by omega⟩
          rw [markLoop, e k (by omega)]
        · refine q.weaken ?_
          intro b hb
          simpa [mem_refs] using hb
      | ref a =>
        by_cases hm : s.m a = true
        · obtain ⟨n, s', e, q⟩ := ih hn' ok'
          refine ⟨n + 1, s', ?_, ?_⟩
          · intro k hk
            obtain ⟨k, rfl⟩ : ∃ j, k = j + 1 := ⟨k - 1, by omega⟩
            rw [markLoop, if_pos hm, e k (by omega)]
          · refine ⟨q.mono, ?_, q.sound, q.closed, q.vd⟩
            intro b hb
            rw [mem_refs] at hb
            rcases List.mem_cons.1 hb with h | h
            · cases h
              exact q.mono _ hm
            · exact q.tgt b (mem_refs.2 h)
        · have hm' : s.m a = false := by simpa using hm
          obtain ⟨ga, o, ho, hcl⟩ := ok a List.mem_cons_self
          cases o with
          | expr h e =>
            obtain ⟨sc, hsc, c⟩ := scan_ok r (r.okM ga ho)
            -- the state after the marks on the spot
            generalize hs1 : ((s.mark a).marks sc.now).visit a e = s1
            have mm : ∀ b, s1.m b = true ↔ b ∈ sc.now ∨ b = a ∨ s.m b = true := by
              intro b
              rw [← hs1]
              cases e <;> simp only [Bits.visit, markVd_m] <;> rw [marks_m, mark_m]
            have hvd : ∀ b, s1.vd b = true ↔ s.vd b = true ∨ (b = a ∧ IsVd H b) := by
              intro b
              rw [← hs1]
              have hno : (∀ t i e' f, e ≠ .varDecl t i e' f) → (b = a ∧ IsVd H b → False) := by
                rintro hne ⟨rfl, hh, t, i, e', f, hob⟩
                rw [ho] at hob
                simp only [Option.some.injEq, Obj.expr.injEq] at hob
                exact hne t i e' f hob.2
              cases e with
              | varDecl t i e' f =>
                simp only [Bits.visit, markVd_vd, marks_vd]
                constructor
                · rintro (hb | hb)
                  · exact .inr ⟨hb, h, t, i, e', f, hb ▸ ho⟩
                  · exact .inl hb
                · rintro (hb | ⟨hb, _⟩)
                  · exact .inr hb
                  · exact .inl hb
              | _ =>
                simp only [Bits.visit, marks_vd]
                constructor
                · exact .inl
                · rintro (hb | hb)
                  · exact hb
                  · exact (hno (by simp) hb).elim
            have hmono : ∀ b, s.m b = true → s1.m b = true := fun b hb => (mm b).2 (.inr (.inr hb))
            have hlt : todo D s1 < todo D s :=
              todo_lt hmono (hD a (by rw [ho]; rfl)) hm' ((mm a).2 (.inr (.inl rfl)))
            -- the function item
            obtain ⟨n2, s2, e2, p2⟩ : ∃ n s2, (∀ k, n ≤ k → (match sc.fn with
                | some f => markItem H k s1 f
                | none => .ok s1) = .ok s2) ∧ Post H G s1 s2 sc.fn.toList := by
              cases hf : sc.fn with
              | none => exact ⟨0, s1, fun _ _ => rfl, Post.refl s1⟩
              | some f =>
                obtain ⟨gf, o', hof, hif⟩ := c.fn f hf
                cases o' with
                | item loc i =>
                  simp only [Option.toList_some]
                  exact item_step hD r (markSeq_ok IH) (by omega) gf hof
                | _ => simp [Is] at hif
            have hst : OkS H G (sc.push.reverse ++ st) := by
              intro b hb
              rcases List.mem_append.1 hb with h | h
              · exact (c.push _ (List.mem_reverse.1 h)).2 b rfl
              · exact ok' b h
            obtain ⟨n3, s3, e3, p3⟩ := IH s2 (by have := todo_mono (D := D) p2.mono; omega) (sc.push.reverse ++ st) (by
              intro q hq
              rcases List.mem_append.1 hq with h | h
              · exact (c.push _ (List.mem_reverse.1 h)).1
              · exact hn' q h) hst
            have q := p2.trans p3
            refine ⟨max n2 n3 + 1, s3, ?_, ?_⟩
            · intro k hk
              obtain ⟨k, rfl⟩ : ∃ j, k = j + 1 := ⟨k - 1, by omega⟩
              rw [markLoop, if_neg hm, ho]
              simp only [hsc, Res.ok_bind, hs1]
              have e2' := e2 k (by omega)
              cases hf : sc.fn with
              | none =>
                rw [hf] at e2'
                simp only [Res.ok.injEq] at e2'
                simp only [e2', e3 k (by omega)]
              | some f =>
                rw [hf] at e2'
                simp only at e2'
                simp only [e2', Res.ok_bind, e3 k (by omega)]
            · have hp : ∀ z, Ptr.ref z ∈ sc.push → s3.m z = true := by
                intro z hz
                refine q.tgt z (List.mem_append.2 (.inr (mem_refs.2 ?_)))
                exact List.mem_append.2 (.inl (List.mem_reverse.2 hz))
              have hfn : ∀ z, sc.fn = some z → s3.m z = true := by
                intro z hz
                exact q.tgt z (List.mem_append.2 (.inl (by simp [hz])))
              refine ⟨fun b hb => q.mono b (hmono b hb), ?_, ?_, ?_, ?_⟩
              · intro b hb
                rw [mem_refs] at hb
                rcases List.mem_cons.1 hb with h | h
                · cases h
                  exact q.mono _ ((mm _).2 (.inr (.inl rfl)))
                · refine q.tgt b (List.mem_append.2 (.inr (mem_refs.2 ?_)))
                  exact List.mem_append.2 (.inr h)
              · intro b hb
                rcases q.sound b hb with h | h
                · rcases (mm b).1 h with h | h | h
                  · exact .inr (c.now b h).1
                  · exact .inr (h ▸ ga)
                  · exact .inl h
                · exact .inr h
              · intro b hb hb' z hz
                by_cases h1 : s1.m b = true
                · rcases (mm b).1 h1 with h | h | h
                  · rcases (c.now b h).2.2 z hz with h | h
                    · exact q.mono z ((mm z).2 (.inl h))
                    · exact hp z h
                  · subst h
                    obtain ⟨o', ho', cl, hmem⟩ := hz
                    rw [ho] at ho'
                    cases ho'
                    rcases c.cover _ hmem with h | h | h
                    · exact q.mono z ((mm z).2 (.inl h))
                    · exact hp z h
                    · exact hfn z h
                  · rw [h] at hb'; simp at hb'
                · exact q.closed b hb (by simpa using h1) z hz
              · intro b
                rw [q.vd, hvd]
                constructor
                · rintro ((h | ⟨rfl, h⟩) | ⟨h1, h2, h3⟩)
                  · exact .inl h
                  · exact .inr ⟨q.mono _ ((mm _).2 (.inr (.inl rfl))), hm', h⟩
                  · refine .inr ⟨h1, ?_, h3⟩
                    by_contra hc
                    rw [hmono b (by simpa using hc)] at h2
                    simp at h2
                · rintro (h | ⟨h1, h2, h3⟩)
                  · exact .inl (.inl h)
                  · by_cases h4 : s1.m b = true
                    · rcases (mm b).1 h4 with h | h | h
                      · obtain ⟨hh, t, i', e', f, hob⟩ := h3
                        exact ((c.now b h).2.1 _ hob (by simp [Is])).elim
                      · exact .inl (.inr ⟨h, h3⟩)
                      · rw [h] at h2; simp at h2
                    · exact .inr ⟨h1, by simpa using h4, h3⟩
          | _ => simp [Is] at hcl

end
end GCMark
end MZ
