import Verif.GC.HeapNew
/-!
# Sweeping
-/
namespace MZ
namespace GCHeap

/-- A page that is kept, after sweeping. -/
def keptPage (item : Nat) (p : Page) : Page := { p with cells := fun o => (p.cells o).map (sweepBlock item) }
/-- A page that is given back. -/
def freedPage (p : Page) : Page :=
  { p with cells := fun o => (p.cells o).map fun b => if b.fl then { b with mark := false } else b }

theorem sweepBlock_size (item : Nat) (b : Block) : (sweepBlock item b).size = b.size := by
  unfold sweepBlock; split
  · split <;> rfl
  · split <;> rfl

theorem layout_kept {item : Nat} {p : Page} (h : Tiles p.cells p.used 0 (layout p)) :
    layout (keptPage item p) = (layout p).map fun q => (q.1, sweepBlock item q.2) :=
  layout_eq (h.map _ (sweepBlock_size item))

theorem layout_freed {p : Page} (h : Tiles p.cells p.used 0 (layout p)) :
    layout (freedPage p) = (layout p).map fun q => (q.1, if q.2.fl then { q.2 with mark := false } else q.2) :=
  layout_eq (h.map _ (fun b => by split <;> rfl))

/-- Free-list node of slot `s` at an address. -/
def F (item : Nat) (ps : List Page) (s : Nat) (a : Addr) : Prop :=
  ∃ b, BlockAt ps a b ∧ b.fl = true ∧ b.size = flSize item s

theorem blockAt_append {l m : List Page} {a : Addr} {b : Block} : BlockAt (l ++ m) a b ↔ BlockAt l a b ∨ BlockAt m a b := by
  unfold BlockAt
  constructor
  · rintro ⟨p, hp, h⟩
    rcases List.mem_append.1 hp with hp | hp
    · exact .inl ⟨p, hp, h⟩
    · exact .inr ⟨p, hp, h⟩
  · rintro (⟨p, hp, h⟩ | ⟨p, hp, h⟩)
    · exact ⟨p, List.mem_append_left _ hp, h⟩
    · exact ⟨p, List.mem_append_right _ hp, h⟩

theorem F_append {item : Nat} {l m : List Page} {s : Nat} {a : Addr} : F item (l ++ m) s a ↔ F item l s a ∨ F item m s a := by
  unfold F
  simp only [blockAt_append]
  constructor
  · rintro ⟨b, h | h, r⟩
    · exact .inl ⟨b, h, r⟩
    · exact .inr ⟨b, h, r⟩
  · rintro (⟨b, h, r⟩ | ⟨b, h, r⟩)
    · exact ⟨b, .inl h, r⟩
    · exact ⟨b, .inr h, r⟩

theorem F_cons {item : Nat} {p : Page} {m : List Page} {s : Nat} {a : Addr} :
    F item (p :: m) s a ↔ F item [p] s a ∨ F item m s a := F_append (l := [p])

theorem F_single {item : Nat} {p : Page} {s : Nat} {a : Addr} :
    F item [p] s a ↔ p.id = a.1 ∧ ∃ b, (a.2, b) ∈ layout p ∧ b.fl = true ∧ b.size = flSize item s := by
  unfold F BlockAt
  constructor
  · rintro ⟨b, ⟨q, hq, hid, hm⟩, r⟩
    simp at hq; subst hq
    exact ⟨hid, b, hm, r⟩
  · rintro ⟨hid, b, hm, r⟩
    exact ⟨b, ⟨p, by simp, hid, hm⟩, r⟩

theorem F_freed {item : Nat} {p : Page} (h : Tiles p.cells p.used 0 (layout p)) {s : Nat} {a : Addr} :
    F item [freedPage p] s a ↔ F item [p] s a := by
  rw [F_single, F_single, layout_freed h]
  have : (freedPage p).id = p.id := rfl
  rw [this]
  refine and_congr Iff.rfl ?_
  constructor
  · rintro ⟨b, hm, hf, hs⟩
    obtain ⟨⟨o, c⟩, hc, he⟩ := List.mem_map.1 hm
    simp only [Prod.mk.injEq] at he
    obtain ⟨rfl, rfl⟩ := he
    refine ⟨c, hc, ?_⟩
    by_cases h1 : c.fl = true
    · rw [if_pos h1] at hs; exact ⟨h1, hs⟩
    · rw [if_neg h1] at hf; exact absurd hf h1
  · rintro ⟨b, hm, hf, hs⟩
    exact ⟨_, List.mem_map.2 ⟨_, hm, rfl⟩, by simp [hf, hs]⟩

/-- The nodes that become free on a page that is kept. -/
def Dead (item : Nat) (p : Page) (s : Nat) (a : Addr) : Prop :=
  p.id = a.1 ∧ ∃ b, (a.2, b) ∈ layout p ∧ b.mark = false ∧ inRange item b = true ∧ b.size = flSize item s

theorem F_kept {item : Nat} {p : Page} (h : PageOk item p) {s : Nat} {a : Addr} :
    F item [keptPage item p] s a ↔ F item [p] s a ∨ Dead item p s a := by
  rw [F_single, F_single, layout_kept h.tiles]
  have : (keptPage item p).id = p.id := rfl
  rw [this]
  unfold Dead
  constructor
  · rintro ⟨hid, b, hm, hf, hs⟩
    obtain ⟨⟨o, c⟩, hc, he⟩ := List.mem_map.1 hm
    simp only [Prod.mk.injEq] at he
    obtain ⟨rfl, rfl⟩ := he
    rw [sweepBlock_size] at hs
    unfold sweepBlock at hf
    by_cases h1 : c.mark = true
    · rw [if_pos h1] at hf
      left
      refine ⟨hid, c, hc, ?_, hs⟩
      by_cases h2 : c.fl = true
      · exact h2
      · rw [if_neg h2] at hf; exact hf
    · rw [if_neg h1] at hf
      by_cases h2 : inRange item c = true
      · exact .inr ⟨hid, c, hc, by simpa using h1, h2, hs⟩
      · rw [if_neg h2] at hf
        exact absurd (h.fl _ _ hc hf) h1
  · rintro (⟨hid, b, hm, hf, hs⟩ | ⟨hid, b, hm, h1, h2, hs⟩)
    · refine ⟨hid, _, List.mem_map.2 ⟨_, hm, rfl⟩, ?_, by rw [sweepBlock_size]; exact hs⟩
      have := h.fl _ _ hm hf
      simp [sweepBlock, this, hf]
    · refine ⟨hid, _, List.mem_map.2 ⟨_, hm, rfl⟩, ?_, by rw [sweepBlock_size]; exact hs⟩
      simp [sweepBlock, h1, h2]

/-- Bytes of the dead nodes that go to the free lists. -/
def deadBytes (item : Nat) : List (Nat × Block) → Nat
  | [] => 0
  | (_, b) :: l => (if !b.mark && inRange item b then b.size else 0) + deadBytes item l

theorem pushAll_ok {item : Nat} (hi : item % 8 = 0) (pid : Nat) (l : List (Nat × Block)) :
    ∀ (fls : Nat → List Addr) (free : Int), (l.map (·.1)).Nodup → (∀ o b, (o, b) ∈ l → b.size % 8 = 0) →
      (∀ s, (fls s).Nodup) → (∀ s o b, (o, b) ∈ l → b.mark = false → (pid, o) ∉ fls s) →
      ∃ fls', pushAll item pid l fls free = .ok (fls', free + deadBytes item l) ∧ (∀ s, (fls' s).Nodup) ∧
        ∀ s a, a ∈ fls' s ↔ a ∈ fls s ∨
          (pid = a.1 ∧ ∃ b, (a.2, b) ∈ l ∧ b.mark = false ∧ inRange item b = true ∧ b.size = flSize item s) := by
  induction l with
  | nil =>
    intro fls free _ _ hn _
    exact ⟨fls, by simp [pushAll, deadBytes], hn, by simp⟩
  | cons q l ih =>
    obtain ⟨o, b⟩ := q
    intro fls free hnd h8 hn hnew
    rw [List.map_cons, List.nodup_cons] at hnd
    rw [pushAll]
    by_cases hc : (!b.mark && inRange item b) = true
    · rw [if_pos hc]
      simp only [Bool.and_eq_true, Bool.not_eq_true', inRange_iff] at hc
      obtain ⟨slot, hs, h9, hse⟩ := slot_ok hi (h8 o b (by simp)) hc.2.1 hc.2.2
      rw [hs, Res.ok_bind]
      have hnd' : ∀ s, (set fls slot ((pid, o) :: fls slot) s).Nodup := by
        intro s
        unfold set
        split
        · rw [List.nodup_cons]; exact ⟨hnew slot o b (by simp) hc.1, hn slot⟩
        · exact hn s
      obtain ⟨fls', e, n', m'⟩ := ih (set fls slot ((pid, o) :: fls slot)) (free + b.size) hnd.2
        (fun o b hm => h8 o b (by simp [hm])) hnd' (by
          intro s o' b' hm hmk
          have h1 := hnew s o' b' (by simp [hm]) hmk
          unfold set
          split
          · rw [List.mem_cons, not_or]
            refine ⟨?_, by rename_i hss; rw [← hss]; exact h1⟩
            intro he
            cases he
            exact hnd.1 (List.mem_map.2 ⟨_, hm, rfl⟩)
          · exact h1)
      refine ⟨fls', ?_, n', ?_⟩
      · rw [e]
        simp only [deadBytes]
        rw [if_pos (by simp [hc.1, inRange_iff, hc.2])]
        congr 2
        push_cast; omega
      · intro s a
        rw [m' s a]
        unfold set
        by_cases hss : s = slot
        · subst hss
          rw [if_pos rfl, List.mem_cons]
          constructor
          · rintro ((rfl | h1) | ⟨h1, c, h2, h3⟩)
            · exact .inr ⟨rfl, b, by simp, hc.1, by rw [inRange_iff]; exact hc.2, hse⟩
            · exact .inl h1
            · exact .inr ⟨h1, c, by simp [h2], h3⟩
          · rintro (h1 | ⟨h1, c, h2, h3⟩)
            · exact .inl (.inr h1)
            · rcases List.mem_cons.1 h2 with h4 | h4
              · left; left
                obtain ⟨i, k⟩ := a
                simp only at h1 h4
                cases h4; rw [h1]
              · exact .inr ⟨h1, c, h4, h3⟩
        · rw [if_neg hss]
          constructor
          · rintro (h1 | ⟨h1, c, h2, h3⟩)
            · exact .inl h1
            · exact .inr ⟨h1, c, by simp [h2], h3⟩
          · rintro (h1 | ⟨h1, c, h2, h3⟩)
            · exact .inl h1
            · rcases List.mem_cons.1 h2 with h4 | h4
              · cases h4
                exact absurd (slot_inj (hse ▸ h3.2.2 : flSize item slot = flSize item s)).symm hss
              · exact .inr ⟨h1, c, h4, h3⟩
    · rw [if_neg hc]
      obtain ⟨fls', e, n', m'⟩ := ih fls free hnd.2 (fun o b hm => h8 o b (by simp [hm])) hn
        (fun s o b hm => hnew s o b (by simp [hm]))
      refine ⟨fls', ?_, n', ?_⟩
      · rw [e]; simp only [deadBytes]; rw [if_neg hc]; simp
      · intro s a
        rw [m' s a]
        constructor
        · rintro (h1 | ⟨h1, c, h2, h3⟩)
          · exact .inl h1
          · exact .inr ⟨h1, c, by simp [h2], h3⟩
        · rintro (h1 | ⟨h1, c, h2, h3⟩)
          · exact .inl h1
          · rcases List.mem_cons.1 h2 with h4 | h4
            · cases h4
              exact absurd (by simp [h3.1, h3.2.1]) hc
            · exact .inr ⟨h1, c, h4, h3⟩

theorem flBytes_kept {item : Nat} (l : List (Nat × Block)) (hf : ∀ o b, (o, b) ∈ l → b.fl = true → b.mark = true) :
    flBytes (l.map fun q => (q.1, sweepBlock item q.2)) = flBytes l + deadBytes item l := by
  induction l with
  | nil => rfl
  | cons q l ih =>
    obtain ⟨o, b⟩ := q
    have := ih fun o b hm => hf o b (by simp [hm])
    simp only [List.map_cons, flBytes, deadBytes, this, sweepBlock_size]
    unfold sweepBlock
    by_cases h1 : b.mark = true
    · by_cases h2 : b.fl = true
      · simp [h1, h2]; omega
      · simp [h1, h2]
    · have h2 : b.fl = false := by
        by_contra h; exact h1 (hf o b (by simp) (by simpa using h))
      by_cases h3 : inRange item b = true
      · simp [h1, h2, h3]; omega
      · simp [h1, h2, h3]

/-- A dead node outside the range of the free lists is the only one on its page. -/
theorem dead_alone {item : Nat} {p : Page} (h : PageOk item p) {o : Nat} {b : Block} (hm : (o, b) ∈ layout p)
    (hd : b.mark = false) (hr : inRange item b = false) : wholePage (layout p) = true ∧ o = 0 ∧ p.used = p.size := by
  rcases h.range o b hm with h1 | ⟨_, h1, h2, h3⟩
  · rw [hr] at h1; simp at h1
  · refine ⟨?_, h1, h3⟩
    unfold wholePage
    rw [List.all_eq_true]
    rintro ⟨o', b'⟩ hm'
    have m1 := h.tiles.mem hm
    have m2 := h.tiles.mem hm'
    rcases h.tiles.disjoint hm hm' with ⟨_, rfl⟩ | h4 | h4
    · simp [hd]
    · omega
    · omega

theorem pageOk_kept {item : Nat} {p : Page} (h : PageOk item p) (hw : wholePage (layout p) = false) :
    PageOk item (keptPage item p) ∧ ∀ o b, (o, b) ∈ layout (keptPage item p) → b.fl = false → b.mark = false := by
  have hl := layout_kept (item := item) h.tiles
  have hti : Tiles (keptPage item p).cells (keptPage item p).used 0 (layout (keptPage item p)) := by
    rw [hl]; exact h.tiles.map _ (sweepBlock_size item)
  have hmem : ∀ o b, (o, b) ∈ layout (keptPage item p) → ∃ c, (o, c) ∈ layout p ∧ b = sweepBlock item c := by
    intro o b hm
    rw [hl] at hm
    obtain ⟨⟨o', c⟩, hc, he⟩ := List.mem_map.1 hm
    simp only [Prod.mk.injEq] at he
    exact ⟨c, by rw [← he.1]; exact hc, he.2.symm⟩
  refine ⟨⟨hti, h.used, h.dvdSize, ?_, ?_, ?_⟩, ?_⟩
  · intro o b hm
    obtain ⟨c, hc, rfl⟩ := hmem o b hm
    rw [sweepBlock_size]; exact h.dvd o c hc
  · intro o b hm
    obtain ⟨c, hc, rfl⟩ := hmem o b hm
    rcases h.range o c hc with h1 | ⟨h1, h2, h3, h4⟩
    · left; rw [inRange_iff, sweepBlock_size]; rw [inRange_iff] at h1; exact h1
    · by_cases hr : inRange item c = true
      · left; rw [inRange_iff, sweepBlock_size]; rw [inRange_iff] at hr; exact hr
      · right
        refine ⟨?_, h2, by rw [sweepBlock_size]; exact h3, h4⟩
        unfold sweepBlock
        rw [if_neg hr, h1]
        split
        · simp [h1]
        · exact h1
  · intro o b hm
    obtain ⟨c, hc, rfl⟩ := hmem o b hm
    intro hf
    unfold sweepBlock at hf ⊢
    by_cases h1 : c.mark = true
    · rw [if_pos h1] at hf ⊢
      by_cases h2 : c.fl = true
      · rw [if_pos h2]; exact h1
      · rw [if_neg h2] at hf; exact absurd hf h2
    · rw [if_neg h1] at hf ⊢
      by_cases h2 : inRange item c = true
      · rw [if_pos h2]
      · rw [if_neg h2] at hf; exact absurd (h.fl o c hc hf) h1
  · intro o b hm
    obtain ⟨c, hc, rfl⟩ := hmem o b hm
    intro hf
    unfold sweepBlock at hf ⊢
    by_cases h1 : c.mark = true
    · rw [if_pos h1] at hf ⊢
      by_cases h2 : c.fl = true
      · rw [if_pos h2] at hf; rw [h2] at hf; simp at hf
      · rw [if_neg h2]
    · rw [if_neg h1] at hf ⊢
      by_cases h2 : inRange item c = true
      · rw [if_pos h2] at hf; simp at hf
      · rw [if_neg h2]; simpa using h1

/-- State of the loop over the pages. -/
structure Loop (item : Nat) (ps : List Page) (h : Heap) (toFree : List Page) : Prop where
  ids : ((h.pages ++ toFree ++ ps).map (·.id)).Nodup
  todo : ∀ p ∈ ps, PageOk item p
  rem : ∀ p ∈ ps, p.used = p.size ∨ flMin item ≤ p.size - p.used
  kept : ∀ p ∈ h.pages, PageOk item p ∧ ∀ o b, (o, b) ∈ layout p → b.fl = false → b.mark = false
  freed : ∀ p ∈ toFree, Tiles p.cells p.used 0 (layout p) ∧ ∀ o b, (o, b) ∈ layout p → b.fl = true → b.mark = false
  fls : ∀ s, (h.fls s).Nodup ∧ ∀ a, a ∈ h.fls s ↔ s ≤ 9 ∧ F item (h.pages ++ toFree ++ ps) s a
  alloced : h.alloced = sizes (h.pages ++ ps)
  free : h.free = frees (h.pages ++ ps)

theorem sweepPages_ok {item : Nat} (hi : item % 8 = 0) (ps : List Page) : ∀ (h : Heap) (toFree : List Page),
    Loop item ps h toFree →
    ∃ h', sweepPages item ps h toFree =
        .ok (h', toFree ++ (ps.filter fun p => wholePage (layout p)).map freedPage) ∧
      h'.pages = h.pages ++ (ps.filter fun p => !wholePage (layout p)).map (keptPage item) ∧
      Loop item [] h' (toFree ++ (ps.filter fun p => wholePage (layout p)).map freedPage) := by
  induction ps with
  | nil =>
    intro h toFree L
    refine ⟨h, ?_, ?_, ?_⟩
    · simp [sweepPages]
    · simp
    · simpa using L
  | cons p ps ih =>
    intro h toFree L
    have hpo := L.todo p (by simp)
    rw [sweepPages, walk_layout hpo.tiles, Res.ok_bind]
    rw [if_neg (by
      rw [not_not, List.all_eq_true]
      rintro ⟨o, b⟩ hm
      unfold deadOk
      by_cases h1 : b.mark = true
      · simp [h1]
      · by_cases h2 : inRange item b = true
        · simp [h2]
        · have := dead_alone hpo hm (by simpa using h1) (by simpa using h2)
          simp [this.2.1, this.2.2])]
    have hbd : ∀ q ∈ h.pages ++ p :: ps, PageOk item q := by
      intro q hq
      rcases List.mem_append.1 hq with h1 | h1
      · exact (L.kept q h1).1
      · exact L.todo q h1
    have hpsum := page_sum hpo
    by_cases hw : wholePage (layout p) = true
    · rw [if_pos hw]
      have hfree : (if p.size - p.used ≥ flMin item then h.free - ((p.size - p.used : Nat) : Int) else h.free) -
          flBytes (layout p) = frees (h.pages ++ ps) := by
        have hsplit : frees (h.pages ++ p :: ps) = frees (h.pages ++ ps) + freeBytes p := by
          simp only [frees, List.map_append, List.sum_append, List.map_cons, List.sum_cons]; omega
        rw [L.free, hsplit]
        rcases L.rem p (by simp) with h1 | h1
        · have h0 : p.size - p.used = 0 := by omega
          rw [if_neg (by rw [h0]; unfold flMin flSize; omega)]
          unfold freeBytes
          push_cast; omega
        · rw [if_pos h1]
          unfold freeBytes
          push_cast; omega
      have halloc : h.alloced - p.size = sizes (h.pages ++ ps) := by
        rw [L.alloced]
        simp only [sizes, List.map_append, List.sum_append, List.map_cons, List.sum_cons]
        push_cast; omega
      have hsum : frees (h.pages ++ ps) + nodes (h.pages ++ ps) = sizes (h.pages ++ ps) :=
        pages_sum (item := item) fun q hq => hbd q (by
          rcases List.mem_append.1 hq with h1 | h1
          · exact List.mem_append_left _ h1
          · exact List.mem_append_right _ (by simp [h1]))
      simp only [hfree, halloc]
      rw [if_neg (by omega)]
      have L2 : Loop item ps { h with alloced := sizes (h.pages ++ ps), free := frees (h.pages ++ ps) }
          (toFree ++ [freedPage p]) := by
        refine ⟨?_, ?_, ?_, ?_, ?_, ?_, rfl, rfl⟩
        · have := L.ids
          simp only [List.map_append, List.map_cons, List.append_assoc, List.cons_append, List.nil_append,
            List.map_nil] at this ⊢
          exact this
        · intro q hq; exact L.todo q (by simp [hq])
        · intro q hq; exact L.rem q (by simp [hq])
        · exact L.kept
        · intro q hq
          rcases List.mem_append.1 hq with h1 | h1
          · exact L.freed q h1
          · simp at h1; subst h1
            refine ⟨?_, ?_⟩
            · rw [layout_freed hpo.tiles]
              exact hpo.tiles.map _ (fun b => by split <;> rfl)
            · intro o b hm hf
              rw [layout_freed hpo.tiles] at hm
              obtain ⟨⟨o', c⟩, hc, he⟩ := List.mem_map.1 hm
              simp only [Prod.mk.injEq] at he
              obtain ⟨_, rfl⟩ := he
              by_cases h1 : c.fl = true
              · rw [if_pos h1]
              · rw [if_neg h1] at hf; exact absurd hf h1
        · intro s
          refine ⟨(L.fls s).1, ?_⟩
          intro a
          rw [(L.fls s).2 a]
          simp only [F_append, F_cons (m := ps), F_freed hpo.tiles]
          tauto
      obtain ⟨h', e, hp', L'⟩ := ih _ _ L2
      refine ⟨h', ?_, ?_, ?_⟩
      · have e' := e
        unfold freedPage at e' ⊢
        rw [e']
        simp [hw]
      · rw [hp']; simp [hw]
      · simpa [hw] using L'
    · rw [if_neg hw]
      have hw' : wholePage (layout p) = false := by simpa using hw
      obtain ⟨k1, k2⟩ := pageOk_kept hpo hw'
      obtain ⟨fls', e1, n1, m1⟩ := pushAll_ok hi p.id (layout p) h.fls h.free hpo.tiles.nodup hpo.dvd
        (fun s => (L.fls s).1) (by
          intro s o b hm hmk hin
          obtain ⟨_, c, ⟨q, hq, hid, hqm⟩, hcf, _⟩ := ((L.fls s).2 _).1 hin
          have hqp : q = p := by
            have hn := L.ids
            exact page_unique hn hq (by simp) hid
          subst hqp
          have := hpo.tiles.inj hm hqm
          subst this
          rw [hpo.fl _ _ hm hcf] at hmk; simp at hmk)
      rw [e1, Res.ok_bind]
      simp only
      have hfk : freeBytes (keptPage item p) = freeBytes p + deadBytes item (layout p) := by
        unfold freeBytes
        rw [layout_kept hpo.tiles, flBytes_kept _ hpo.fl]
        simp only [keptPage]; omega
      have hsum : frees (h.pages ++ keptPage item p :: ps) + nodes (h.pages ++ keptPage item p :: ps) =
          sizes (h.pages ++ keptPage item p :: ps) :=
        pages_sum (item := item) fun q hq => by
          rcases List.mem_append.1 hq with h1 | h1
          · exact (L.kept q h1).1
          · rcases List.mem_cons.1 h1 with h1 | h1
            · rw [h1]; exact k1
            · exact L.todo q (by simp [h1])
      have hfree : h.free + deadBytes item (layout p) = frees (h.pages ++ keptPage item p :: ps) := by
        rw [L.free]
        simp only [frees, List.map_append, List.sum_append, List.map_cons, List.sum_cons, hfk]
        push_cast; omega
      have halloc : h.alloced = sizes (h.pages ++ keptPage item p :: ps) := by
        rw [L.alloced]
        simp only [sizes, List.map_append, List.sum_append, List.map_cons, List.sum_cons]
        rfl
      rw [if_neg (by omega)]
      have L2 : Loop item ps { h with
          fls := fls', free := h.free + deadBytes item (layout p), pages := h.pages ++ [keptPage item p] } toFree := by
        refine ⟨?_, ?_, ?_, ?_, ?_, ?_, ?_, ?_⟩
        · have := L.ids
          have hperm : (((h.pages ++ [keptPage item p]) ++ toFree ++ ps).map (·.id)).Perm
              ((h.pages ++ toFree ++ p :: ps).map (·.id)) := by
            simp only [List.map_append, List.map_cons, List.append_assoc, List.map_nil]
            refine List.Perm.append_left _ ?_
            simp only [List.cons_append, List.nil_append]
            exact List.perm_middle.symm
          exact hperm.nodup_iff.2 this
        · intro q hq; exact L.todo q (by simp [hq])
        · intro q hq; exact L.rem q (by simp [hq])
        · intro q hq
          rcases List.mem_append.1 hq with h1 | h1
          · exact L.kept q h1
          · simp at h1; subst h1; exact ⟨k1, k2⟩
        · exact L.freed
        · intro s
          refine ⟨n1 s, ?_⟩
          intro a
          simp only
          rw [m1 s a, (L.fls s).2 a]
          simp only [F_append, F_cons (m := ps), F_kept hpo]
          have : (p.id = a.1 ∧ ∃ b, (a.2, b) ∈ layout p ∧ b.mark = false ∧ inRange item b = true ∧ b.size = flSize item s) ↔
              s ≤ 9 ∧ Dead item p s a := by
            unfold Dead
            constructor
            · rintro ⟨h1, b, h2, h3, h4, h5⟩
              refine ⟨?_, h1, b, h2, h3, h4, h5⟩
              rw [inRange_iff] at h4
              unfold flMax flSize at h4; unfold flSize at h5; omega
            · rintro ⟨_, h⟩; exact h
          rw [this]
          tauto
        · simp only [List.append_assoc, List.cons_append, List.nil_append]; exact halloc
        · simp only [List.append_assoc, List.cons_append, List.nil_append]; exact hfree
      obtain ⟨h', e, hp', L'⟩ := ih _ _ L2
      refine ⟨h', ?_, ?_, ?_⟩
      · have e' := e
        unfold keptPage at e'
        rw [e']
        simp [hw']
      · rw [hp']; simp [hw']
      · simpa [hw'] using L'

end GCHeap
end MZ
