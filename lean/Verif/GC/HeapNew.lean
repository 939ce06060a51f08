import Verif.GC.HeapAlloc
/-!
# Allocating and constructing a node
-/
namespace MZ
namespace GCHeap

/-- What an allocation followed by the construction of a node achieves. -/
def NewOk (item : Nat) (h : Heap) (size : Nat) (a : Addr) (h' : Heap) : Prop :=
  (∀ c, ¬ Live h a c) ∧
  ∀ b : Block, b.size = size → b.fl = false → b.mark = false →
    WF item none (write h' a b) ∧ Quiet (write h' a b) ∧
    ∀ a' c, Live (write h' a b) a' c ↔ Live h a' c ∨ (a' = a ∧ c = b)

theorem quiet_of {h h' : Heap} (q : Quiet h) (a : Addr) (b : Block) (hm : b.mark = false)
    (hl : ∀ a' c, Live h' a' c → Live h a' c ∨ (a' = a ∧ c = b)) : Quiet h' := by
  intro p hp o c hc hf
  rcases hl (p.id, o) c ⟨⟨p, hp, rfl, hc⟩, hf⟩ with ⟨⟨r, hr, _, hrm⟩, _⟩ | ⟨_, rfl⟩
  · exact q r hr _ c hrm hf
  · exact hm

theorem alloc_on {item : Nat} {x : Option Nat} {h0 h : Heap} (w : WF item x h) (q : Quiet h) {p : Page} (hp : p ∈ h.pages)
    (hx : x = none ∨ x = some p.id) (hl : ∀ a b, Live h a b ↔ Live h0 a b) {size : Nat} (h8 : size % 8 = 0)
    (hpos : 0 < size) (hfit : p.used + size ≤ p.size)
    (hr : (flMin item ≤ size ∧ size ≤ flMax item) ∨ (p.used = 0 ∧ size = p.size))
    (ht : p ∈ h.pages.tail → p.used + size = p.size) :
    ∃ h', (match h.pages.find? (·.id == p.id) with
      | none => (.ub : Res (Addr × Heap))
      | some p' =>
        if p'.used + size > p'.size then .ub
        else
          let used := p'.used + size
          let rem := p'.size - used
          let h := { h with free := h.free - size }
          let h := if rem < flMin item then
              { h with
                free := h.free - rem
                alloced := h.alloced - rem
                pages := setPage { p' with used := used, size := used } h.pages }
            else { h with pages := setPage { p' with used := used } h.pages }
          if h.alloced < h.free then .ub else .ok ((p.id, p'.used), h)) = .ok ((p.id, p.used), h') ∧
      NewOk item h0 size (p.id, p.used) h' := by
  rw [find_page w.ids hp]
  simp only
  rw [if_neg (by omega)]
  have key : ∀ b : Block, b.size = size → b.fl = false → _ := fun b hb hbf =>
    bump w hp hx b hb hbf h8 hpos hfit (hr.imp (fun h => by rw [inRange_iff, hb]; exact h) id) ht _ rfl _ _ rfl rfl
  have hfresh : ∀ c, ¬ Live h0 (p.id, p.used) c := by
    intro c hc
    have := ((hl _ _).2 hc).1
    rw [blockAt_iff w.ids hp] at this
    have := (w.page p hp).tiles.mem this
    omega
  by_cases hc : p.size - (p.used + size) < flMin item
  · simp only [if_pos hc] at key ⊢
    have hb := (key ⟨size, false, false, 0⟩ rfl rfl).1.bound
    simp only at hb
    rw [if_neg (by omega)]
    refine ⟨_, rfl, hfresh, ?_⟩
    intro b hb hbf hbm
    obtain ⟨k1, k2⟩ := key b hb hbf
    rw [write_setPage { h with free := h.free - size - ((p.size - (p.used + size) : Nat) : Int), alloced := h.alloced - ((p.size - (p.used + size) : Nat) : Int) }
      { p with used := p.used + size, size := p.used + size } h.pages p.used b]
    have k3 : ∀ a' c, Live { h with
        free := h.free - size - ((p.size - (p.used + size) : Nat) : Int)
        alloced := h.alloced - ((p.size - (p.used + size) : Nat) : Int)
        pages := setPage (Page.put { p with used := p.used + size, size := p.used + size } p.used b) h.pages } a' c ↔
        Live h0 a' c ∨ (a' = (p.id, p.used) ∧ c = b) := by
      intro a' c
      rw [← hl]
      unfold Live
      have := k2 a' c
      constructor
      · rintro ⟨h1, h2⟩
        rcases this.1 h1 with h3 | h3
        · exact .inl ⟨h3, h2⟩
        · exact .inr h3
      · rintro (⟨h1, h2⟩ | ⟨h1, h2⟩)
        · exact ⟨this.2 (.inl h1), h2⟩
        · exact ⟨this.2 (.inr ⟨h1, h2⟩), by rw [h2]; exact hbf⟩
    exact ⟨k1, quiet_of q (p.id, p.used) b hbm fun a' c hh => by
      rcases (k3 a' c).1 hh with h1 | h1
      · exact .inl ((hl _ _).2 h1)
      · exact .inr h1, k3⟩
  · simp only [if_neg hc, sub_zero] at key ⊢
    have hb := (key ⟨size, false, false, 0⟩ rfl rfl).1.bound
    simp only at hb
    rw [if_neg (by omega)]
    refine ⟨_, rfl, hfresh, ?_⟩
    intro b hb hbf hbm
    obtain ⟨k1, k2⟩ := key b hb hbf
    rw [write_setPage { h with free := h.free - size } { p with used := p.used + size } h.pages p.used b]
    have k3 : ∀ a' c, Live { h with
        free := h.free - size
        pages := setPage (Page.put { p with used := p.used + size } p.used b) h.pages } a' c ↔
        Live h0 a' c ∨ (a' = (p.id, p.used) ∧ c = b) := by
      intro a' c
      rw [← hl]
      unfold Live
      have := k2 a' c
      constructor
      · rintro ⟨h1, h2⟩
        rcases this.1 h1 with h3 | h3
        · exact .inl ⟨h3, h2⟩
        · exact .inr h3
      · rintro (⟨h1, h2⟩ | ⟨h1, h2⟩)
        · exact ⟨this.2 (.inl h1), h2⟩
        · exact ⟨this.2 (.inr ⟨h1, h2⟩), by rw [h2]; exact hbf⟩
    exact ⟨k1, quiet_of q (p.id, p.used) b hbm fun a' c hh => by
      rcases (k3 a' c).1 hh with h1 | h1
      · exact .inl ((hl _ _).2 h1)
      · exact .inr h1, k3⟩

theorem alloc_ok {item : Nat} (hi : item % 8 = 0) {h : Heap} (w : WF item none h) (q : Quiet h) {size pid : Nat}
    {exact : Bool} (h8 : size % 8 = 0) (hpos : 0 < size)
    (hr : exact = false → flMin item ≤ size ∧ size ≤ flMax item) (hpid : pid ∉ h.pages.map (·.id)) :
    ∃ a h', alloc item h size exact pid = .ok (a, h') ∧ NewOk item h size a h' := by
  unfold alloc
  rw [if_neg (by
    simp only [not_not]
    cases exact with
    | true => exact .inr rfl
    | false => exact .inl (hr rfl).2)]
  simp only [align_eq h8]
  have fresh : (exact = false → ∀ p ps, h.pages = p :: ps → p.size - p.used ≤ flMax item) →
      (∃ h1, allocPage item h size exact pid = .ok h1 ∧ ∃ h', (match h1.pages.find? (·.id == pid) with
      | none => (.ub : Res (Addr × Heap))
      | some p' =>
        if p'.used + size > p'.size then .ub
        else
          let used := p'.used + size
          let rem := p'.size - used
          let h := { h1 with free := h1.free - size }
          let h := if rem < flMin item then
              { h with
                free := h.free - rem
                alloced := h.alloced - rem
                pages := setPage { p' with used := used, size := used } h.pages }
            else { h with pages := setPage { p' with used := used } h.pages }
          if h.alloced < h.free then .ub else .ok ((pid, p'.used), h)) = .ok ((pid, 0), h') ∧
      NewOk item h size (pid, 0) h') := by
    intro hns
    obtain ⟨h1, e1, w1, q1, m1, t1, l1⟩ := allocPage_ok hi w q h8 hpid hns
    refine ⟨h1, e1, ?_⟩
    have hfit : (emptyPage pid (if exact then size else max size pageSize)).used + size ≤
        (emptyPage pid (if exact then size else max size pageSize)).size := by
      simp only [emptyPage]; split <;> omega
    have := alloc_on (item := item) (h0 := h) w1 q1 m1 (.inr rfl) l1 h8 hpos hfit (by
      cases exact with
      | true => right; simp [emptyPage]
      | false => left; exact hr rfl) (by
      intro ht
      cases exact with
      | true => simp [emptyPage]
      | false => exact absurd ht (t1 rfl))
    exact this
  unfold choosePage
  cases hpg : h.pages with
  | nil =>
    obtain ⟨h1, e1, h', e2, n⟩ := fresh (by intro _ p ps he; rw [hpg] at he; simp at he)
    refine ⟨(pid, 0), h', ?_, n⟩
    simp only [e1, Res.ok_bind]
    exact e2
  | cons p ps =>
    simp only
    by_cases hc : exact = true ∨ p.used + size ≥ p.size
    · rw [if_pos hc]
      obtain ⟨h1, e1, h', e2, n⟩ := fresh (by
        intro he p' ps' hp'
        rw [hpg] at hp'
        cases hp'
        have := (hr he).2
        rcases hc with hc | hc
        · rw [he] at hc; simp at hc
        · omega)
      refine ⟨(pid, 0), h', ?_, n⟩
      simp only [e1, Res.ok_bind]
      exact e2
    · rw [if_neg hc]
      rw [not_or] at hc
      have hex : exact = false := by simpa using hc.1
      have hpm : p ∈ h.pages := by rw [hpg]; simp
      obtain ⟨h', e2, n⟩ := alloc_on (item := item) (h0 := h) w q hpm (.inl rfl) (fun _ _ => Iff.rfl) h8 hpos
        (by omega) (.inl (hr hex)) (by
          intro ht
          rw [hpg, List.tail_cons] at ht
          have := w.ids
          rw [hpg, List.map_cons, List.nodup_cons] at this
          exact absurd (List.mem_map_of_mem ht) this.1)
      refine ⟨(p.id, p.used), h', ?_, n⟩
      simp only [Res.ok_bind]
      exact e2

/-! ## Allocation from a free list -/

theorem write_eq {h : Heap} (hn : (h.pages.map (·.id)).Nodup) {p : Page} (hp : p ∈ h.pages) (o : Nat) (b : Block) :
    write h (p.id, o) b = { h with pages := setPage (p.put o b) h.pages } := by
  unfold write setPage
  congr 1
  apply List.map_congr_left
  intro r hr
  by_cases he : r.id = p.id
  · rw [if_pos he, if_pos (show r.id = (p.put o b).id from he), page_unique hn hr hp he]; rfl
  · rw [if_neg he, if_neg (show ¬ r.id = (p.put o b).id from he)]

theorem pop_ok {item : Nat} {h : Heap} (w : WF item none h) (q : Quiet h) {slot : Nat} {a : Addr} {rest : List Addr}
    (hf : h.fls slot = a :: rest) {size : Nat} (hs : size = flSize item slot) :
    NewOk item h size a { h with fls := set h.fls slot rest, free := h.free - size } := by
  obtain ⟨f1, f2⟩ := w.fls slot
  obtain ⟨h9, d, ⟨p, hp, hpid, hm⟩, hdf, hds⟩ := (f2 a).1 (by rw [hf]; simp)
  rw [hf, List.nodup_cons] at f1
  obtain ⟨i, o⟩ := a
  simp only at hpid hm
  subst hpid
  have hpo := w.page p hp
  refine ⟨?_, ?_⟩
  · rintro c ⟨hc, hcf⟩
    rw [blockAt_iff w.ids hp] at hc
    have := hpo.tiles.inj hc hm
    rw [this, hdf] at hcf; simp at hcf
  · intro b hb hbf hbm
    rw [write_eq (h := { h with fls := set h.fls slot rest, free := h.free - size }) w.ids hp]
    have hti := hpo.tiles.replace b hm (by rw [hb, hs, hds])
    have hlay : layout (p.put o b) = (layout p).map fun q => (q.1, if q.1 = o then b else q.2) := layout_eq hti
    have hid : (p.put o b).id = p.id := rfl
    have hex : ∃ r ∈ h.pages, r.id = (p.put o b).id := ⟨p, hp, rfl⟩
    have hbl : ∀ a' c, BlockAt (setPage (p.put o b) h.pages) a' c ↔
        (BlockAt h.pages a' c ∧ a' ≠ (p.id, o)) ∨ (a' = (p.id, o) ∧ c = b) := by
      intro a' c
      rw [blockAt_setPage hex, hlay, hid]
      obtain ⟨i', o'⟩ := a'
      simp only
      by_cases hi : i' = p.id
      · subst hi
        rw [blockAt_iff w.ids hp]
        simp only [ne_eq, not_true_eq_false, false_and, true_and, false_or, List.mem_map, Prod.mk.injEq]
        constructor
        · rintro ⟨⟨k, e⟩, hk, h1, h2⟩
          simp only at h1 h2
          subst h1
          by_cases hko : k = o
          · rw [if_pos hko] at h2; exact .inr ⟨hko, h2.symm⟩
          · rw [if_neg hko] at h2; subst h2; exact .inl ⟨hk, hko⟩
        · rintro (⟨h1, h2⟩ | ⟨h1, h2⟩)
          · exact ⟨(o', c), h1, rfl, by simp only; rw [if_neg h2]⟩
          · exact ⟨(o, d), hm, h1.symm, by simp [h2]⟩
      · simp [hi]
    have hlive : ∀ a' c, Live { h with fls := set h.fls slot rest, free := h.free - size, pages := setPage (p.put o b) h.pages } a' c ↔
        Live h a' c ∨ (a' = (p.id, o) ∧ c = b) := by
      intro a' c
      unfold Live
      simp only [hbl]
      constructor
      · rintro ⟨⟨h1, _⟩ | h1, h2⟩
        · exact .inl ⟨h1, h2⟩
        · exact .inr h1
      · rintro (⟨h1, h2⟩ | ⟨h1, h2⟩)
        · refine ⟨.inl ⟨h1, ?_⟩, h2⟩
          rintro rfl
          rw [blockAt_iff w.ids hp] at h1
          have := hpo.tiles.inj h1 hm
          rw [this, hdf] at h2; simp at h2
        · exact ⟨.inr ⟨h1, h2⟩, by rw [h2]; exact hbf⟩
    refine ⟨⟨?_, ?_, ?_, ?_, ?_, ?_, ?_⟩, quiet_of q (p.id, o) b hbm fun a' c hh => (hlive a' c).1 hh, hlive⟩
    · show ((setPage _ h.pages).map (·.id)).Nodup
      rw [setPage_ids]; exact w.ids
    · intro r hr
      rcases mem_setPage.1 hr with ⟨h1, _⟩ | ⟨rfl, _⟩
      · exact w.page r h1
      · have hmem : ∀ k c, (k, c) ∈ layout (p.put o b) → ((k, c) ∈ layout p ∧ k ≠ o) ∨ (k = o ∧ c = b) := by
          intro k c hk
          rw [hlay, List.mem_map] at hk
          obtain ⟨⟨k', e⟩, hk', h1⟩ := hk
          simp only [Prod.mk.injEq] at h1
          obtain ⟨rfl, h1⟩ := h1
          by_cases hko : k' = o
          · rw [if_pos hko] at h1; exact .inr ⟨hko, h1.symm⟩
          · rw [if_neg hko] at h1; subst h1; exact .inl ⟨hk', hko⟩
        refine ⟨by rw [hlay]; exact hti, hpo.used, hpo.dvdSize, ?_, ?_, ?_⟩
        · intro k c hk
          rcases hmem k c hk with ⟨h1, _⟩ | ⟨_, rfl⟩
          · exact hpo.dvd k c h1
          · rw [hb, hs, ← hds]; exact hpo.dvd _ _ hm
        · intro k c hk
          rcases hmem k c hk with ⟨h1, _⟩ | ⟨_, rfl⟩
          · exact hpo.range k c h1
          · left
            rcases hpo.range _ _ hm with h1 | ⟨h1, _⟩
            · rw [inRange_iff] at h1 ⊢; rw [hb, hs, ← hds]; exact h1
            · rw [hdf] at h1; simp at h1
        · intro k c hk
          rcases hmem k c hk with ⟨h1, _⟩ | ⟨_, rfl⟩
          · exact hpo.fl k c h1
          · rw [hbf]; simp
    · intro r hr
      simp only [setPage_tail] at hr
      rcases mem_setPage.1 hr with ⟨h1, _⟩ | ⟨rfl, s, hs, hsi⟩
      · exact w.tail r h1
      · have : s = p := page_unique w.ids (List.mem_of_mem_tail hs) hp hsi
        exact w.tail p (this ▸ hs)
    · intro r hr
      rcases mem_setPage.1 hr with ⟨h1, _⟩ | ⟨rfl, _⟩
      · exact w.rem r h1
      · exact w.rem p hp
    · intro s
      obtain ⟨g1, g2⟩ := w.fls s
      simp only [set]
      have hother : ∀ a', a' ≠ (p.id, o) → ∀ c, (BlockAt (setPage (p.put o b) h.pages) a' c ↔ BlockAt h.pages a' c) := by
        intro a' ha c
        rw [hbl]
        simp [ha]
      have hself : ∀ c, BlockAt (setPage (p.put o b) h.pages) (p.id, o) c → c.fl = false := by
        intro c hc
        rcases (hbl _ _).1 hc with ⟨_, h1⟩ | ⟨_, rfl⟩
        · exact absurd rfl h1
        · exact hbf
      by_cases hss : s = slot
      · subst hss
        rw [if_pos rfl]
        rw [hf, List.nodup_cons] at g1
        refine ⟨g1.2, ?_⟩
        intro a'
        constructor
        · intro ha
          obtain ⟨h1, c, h2, h3⟩ := (g2 a').1 (by rw [hf]; simp [ha])
          have hne : a' ≠ (p.id, o) := by rintro rfl; exact g1.1 ha
          exact ⟨h1, c, (hother a' hne c).2 h2, h3⟩
        · rintro ⟨h1, c, h2, h3, h4⟩
          have hne : a' ≠ (p.id, o) := by
            rintro rfl; rw [hself c h2] at h3; simp at h3
          have := (g2 a').2 ⟨h1, c, (hother a' hne c).1 h2, h3, h4⟩
          rw [hf] at this
          rcases List.mem_cons.1 this with h5 | h5
          · exact absurd h5 hne
          · exact h5
      · rw [if_neg hss]
        refine ⟨g1, ?_⟩
        intro a'
        rw [g2 a']
        constructor
        · rintro ⟨h1, c, h2, h3, h4⟩
          have hne : a' ≠ (p.id, o) := by
            rintro rfl
            rw [blockAt_iff w.ids hp] at h2
            have := hpo.tiles.inj h2 hm
            rw [this, hds] at h4
            exact hss (slot_inj h4).symm
          exact ⟨h1, c, (hother a' hne c).2 h2, h3, h4⟩
        · rintro ⟨h1, c, h2, h3, h4⟩
          have hne : a' ≠ (p.id, o) := by
            rintro rfl; rw [hself c h2] at h3; simp at h3
          exact ⟨h1, c, (hother a' hne c).1 h2, h3, h4⟩
    · have := setPage_sum (·.size) w.ids hp hid
      show h.alloced = ((sizes _ : Nat) : Int)
      rw [w.alloced]
      unfold sizes
      simp only [Page.put] at this ⊢
      omega
    · have := setPage_sum freeBytes w.ids hp hid
      show h.free - size = ((frees _ : Nat) : Int)
      rw [w.free]
      have hr := flBytes_replace (b' := b) hpo.tiles.nodup hm
      rw [hdf, hbf, ← hlay] at hr
      simp only [if_true, Bool.false_eq_true, if_false, Nat.add_zero] at hr
      unfold frees
      simp only [freeBytes] at this ⊢
      have e1 : (p.put o b).size = p.size := rfl
      have e2 : (p.put o b).used = p.used := rfl
      rw [e1, e2] at this
      omega

/-- Allocation of a node and its construction. -/
theorem new_ok {item : Nat} (hi : item % 8 = 0) {h : Heap} (w : WF item none h) (q : Quiet h) {size pid : Nat}
    (hpos : 0 < size) (hpid : pid ∉ h.pages.map (·.id)) (data : Nat) :
    ∃ a h', gcAlloc item h size pid = .ok (a, h') ∧ (∀ c, ¬ Live h a c) ∧
      WF item none (construct h' a size data) ∧ Quiet (construct h' a size data) ∧
      ∀ a' c, Live (construct h' a size data) a' c ↔
        Live h a' c ∨ (a' = a ∧ c = ⟨align size, false, false, data⟩) := by
  have hww : ∀ (g : Heap) (a : Addr) (b c : Block), write (write g a b) a c = write g a c := by
    intro g a b c
    unfold write
    simp only [List.map_map]
    congr 1
    apply List.map_congr_left
    intro r _
    simp only [Function.comp]
    by_cases he : r.id = a.1
    · simp [he, set_set]
    · simp [he]
  have h8 := align_mod size
  have hpos' : 0 < align size := by have := align_ge size; omega
  have fin : ∀ a h1, NewOk item h (align size) a h1 →
      (∀ c, ¬ Live h a c) ∧ WF item none (construct (write h1 a ⟨align size, true, false, 0⟩) a size data) ∧
      Quiet (construct (write h1 a ⟨align size, true, false, 0⟩) a size data) ∧
      ∀ a' c, Live (construct (write h1 a ⟨align size, true, false, 0⟩) a size data) a' c ↔
        Live h a' c ∨ (a' = a ∧ c = ⟨align size, false, false, data⟩) := by
    intro a h1 hn
    unfold construct
    rw [hww]
    exact ⟨hn.1, hn.2 ⟨align size, false, false, data⟩ rfl rfl rfl⟩
  unfold gcAlloc
  simp only
  by_cases hc : align size < flMin item ∨ align size > flMax item
  · rw [if_pos hc]
    obtain ⟨a, h1, e, n⟩ := alloc_ok hi w q (exact := true) h8 hpos' (by simp) hpid
    rw [e, Res.ok_bind]
    exact ⟨a, _, rfl, fin a h1 n⟩
  · rw [if_neg hc]
    rw [not_or] at hc
    obtain ⟨slot, hs, h9, hse⟩ := slot_ok hi h8 (by omega : flMin item ≤ align size) (by omega)
    unfold flAlloc
    rw [hs, Res.ok_bind]
    cases hf : h.fls slot with
    | nil =>
      obtain ⟨a, h1, e, n⟩ := alloc_ok hi w q (exact := false) h8 hpos' (by omega) hpid
      simp only [e, Res.ok_bind]
      exact ⟨a, _, rfl, fin a h1 n⟩
    | cons a rest =>
      simp only [Res.ok_bind]
      exact ⟨a, _, rfl, fin a _ (pop_ok w q hf hse)⟩

end GCHeap
end MZ
