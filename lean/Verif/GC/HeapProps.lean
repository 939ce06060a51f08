import Verif.GC.HeapSweep
/-!
# C27: memory of the garbage collector
-/
namespace MZ
namespace GCHeap

theorem header_of {l : List Page} (hn : (l.map (·.id)).Nodup) (ht : ∀ p ∈ l, Tiles p.cells p.used 0 (layout p)) {a : Addr}
    {b : Block} (h : BlockAt l a b) : header l a = some b := by
  obtain ⟨p, hp, hid, hm⟩ := h
  unfold header
  rw [← hid, find_page hn hp]
  exact ((ht p hp).mem hm).1

theorem unlink_ok {ps : List Page} (l : List Addr) (h : ∀ a ∈ l, ∃ b, header ps a = some b) :
    unlink ps l = .ok (l.filter fun a => (header ps a).any (·.mark)) := by
  induction l with
  | nil => rfl
  | cons a l ih =>
    obtain ⟨b, hb⟩ := h a (by simp)
    rw [unlink, hb]
    simp only
    rw [ih fun a ha => h a (by simp [ha]), Res.ok_bind]
    by_cases hm : b.mark = true
    · simp [hb, hm]
    · simp [hb, hm]

theorem unlinkAll_ok {ps : List Page} (n : Nat) : ∀ (fls : Nat → List Addr), (∀ s, ∀ a ∈ fls s, ∃ b, header ps a = some b) →
    unlinkAll ps n fls = .ok fun s => if s < n then (fls s).filter fun a => (header ps a).any (·.mark) else fls s := by
  induction n with
  | zero => intro fls _; simp [unlinkAll]
  | succ n ih =>
    intro fls h
    rw [unlinkAll, unlink_ok _ (h n), Res.ok_bind]
    rw [ih]
    · congr 1
      funext s
      unfold set
      by_cases h1 : s < n
      · rw [if_pos h1, if_neg (by omega : ¬ s = n), if_pos (by omega : s < n + 1)]
      · rw [if_neg h1]
        by_cases h2 : s = n
        · rw [if_pos h2, if_pos (by omega), h2]
        · rw [if_neg h2, if_neg (by omega)]
    · intro s a ha
      unfold set at ha
      split at ha
      · exact h n a (List.mem_filter.1 ha).1
      · exact h s a ha

theorem sweep_ok {item : Nat} (hi : item % 8 = 0) {h : Heap} (w : WF item none h) :
    ∃ h', sweep item h = .ok h' ∧ WF item none h' ∧ Quiet h' ∧
      ∀ a c, Live h' a c ↔ ∃ b, Live h a b ∧ b.mark = true ∧ c = { b with mark := false } := by
  have L0 : Loop item h.pages { h with pages := [] } [] := by
    refine ⟨?_, w.page, ?_, by simp, by simp, ?_, ?_, ?_⟩
    · simpa using w.ids
    · intro p hp
      rcases w.rem p hp with h1 | h1
      · simp at h1
      · exact h1
    · intro s
      have := w.fls s
      simpa [F] using this
    · simpa using w.alloced
    · simpa using w.free
  obtain ⟨h', e, hp, L⟩ := sweepPages_ok hi h.pages _ _ L0
  simp only [List.nil_append] at e hp L
  generalize hT : (h.pages.filter fun p => wholePage (layout p)).map freedPage = T at e L
  have hti : ∀ p ∈ h'.pages ++ T, Tiles p.cells p.used 0 (layout p) := by
    intro p hp
    rcases List.mem_append.1 hp with h1 | h1
    · exact (L.kept p h1).1.tiles
    · exact (L.freed p h1).1
  have hids : ((h'.pages ++ T).map (·.id)).Nodup := by
    have := L.ids; simpa using this
  have hids' : (h'.pages.map (·.id)).Nodup := by
    rw [List.map_append] at hids
    exact (List.nodup_append.1 hids).1
  have htail : ∀ p ∈ h'.pages.tail, p.used = p.size := by
    have hsub : (h'.pages.tail.map fun p => (p.used, p.size)).Sublist (h.pages.tail.map fun p => (p.used, p.size)) := by
      rw [List.map_tail, List.map_tail]
      refine List.Sublist.tail ?_
      rw [hp, List.map_map]
      exact List.Sublist.map _ List.filter_sublist
    intro p hpm
    have : (p.used, p.size) ∈ h.pages.tail.map fun p => (p.used, p.size) := hsub.subset (List.mem_map.2 ⟨p, hpm, rfl⟩)
    obtain ⟨q, hq, he⟩ := List.mem_map.1 this
    simp only [Prod.mk.injEq] at he
    rcases w.tail q hq with h1 | h1
    · rw [← he.1, ← he.2]; exact h1
    · simp at h1
  have hrem : ∀ p ∈ h'.pages, some p.id = none ∨ p.used = p.size ∨ flMin item ≤ p.size - p.used := by
    intro p hpm
    rw [hp] at hpm
    obtain ⟨q, hq, rfl⟩ := List.mem_map.1 hpm
    rcases w.rem q (List.mem_filter.1 hq).1 with h1 | h1
    · simp at h1
    · exact .inr h1
  have hlive : ∀ a c, Live h' a c ↔ ∃ b, Live h a b ∧ b.mark = true ∧ c = { b with mark := false } := by
    intro a c
    unfold Live
    constructor
    · rintro ⟨⟨p, hpm, hid, hm⟩, hf⟩
      rw [hp] at hpm
      obtain ⟨q, hq, rfl⟩ := List.mem_map.1 hpm
      obtain ⟨hq, hw⟩ := List.mem_filter.1 hq
      have hqo := w.page q hq
      rw [layout_kept hqo.tiles] at hm
      obtain ⟨⟨o, b⟩, hb, he⟩ := List.mem_map.1 hm
      simp only [Prod.mk.injEq] at he
      obtain ⟨ho, rfl⟩ := he
      unfold sweepBlock at hf ⊢
      by_cases h1 : b.mark = true
      · rw [if_pos h1] at hf ⊢
        by_cases h2 : b.fl = true
        · rw [if_pos h2, h2] at hf; simp at hf
        · rw [if_neg h2]
          exact ⟨b, ⟨⟨q, hq, hid, by rw [← ho]; exact hb⟩, by simpa using h2⟩, h1, rfl⟩
      · rw [if_neg h1] at hf
        by_cases h2 : inRange item b = true
        · rw [if_pos h2] at hf; simp at hf
        · have := (dead_alone hqo hb (by simpa using h1) (by simpa using h2)).1
          rw [this] at hw; simp at hw
    · rintro ⟨b, ⟨⟨q, hq, hid, hm⟩, hf⟩, hmk, rfl⟩
      have hw : wholePage (layout q) = false := by
        by_contra h0
        have h0 : wholePage (layout q) = true := by simpa using h0
        unfold wholePage at h0
        rw [List.all_eq_true] at h0
        have := h0 _ hm
        simp [hmk, hf] at this
      refine ⟨⟨keptPage item q, ?_, hid, ?_⟩, hf⟩
      · rw [hp]; exact List.mem_map.2 ⟨q, List.mem_filter.2 ⟨hq, by simp [hw]⟩, rfl⟩
      · rw [layout_kept (w.page q hq).tiles]
        refine List.mem_map.2 ⟨_, hm, ?_⟩
        simp [sweepBlock, hmk, hf]
  have hquiet : Quiet h' := fun p hpm => (L.kept p hpm).2
  have hall : h'.alloced = sizes h'.pages := by have := L.alloced; simpa using this
  have hfree : h'.free = frees h'.pages := by have := L.free; simpa using this
  unfold sweep
  rw [e, Res.ok_bind]
  simp only
  by_cases hemp : T.isEmpty = true
  · rw [if_pos hemp]
    refine ⟨h', rfl, ⟨hids', fun p hpm => (L.kept p hpm).1, fun p hpm => .inl (htail p hpm), hrem, ?_, hall, hfree⟩,
      hquiet, hlive⟩
    intro s
    have := L.fls s
    have hT0 : T = [] := by simpa using hemp
    rw [hT0] at this
    simpa [F] using this
  · rw [if_neg hemp]
    have hh : ∀ s, ∀ a ∈ h'.fls s, ∃ b, header (h'.pages ++ T) a = some b := by
      intro s a ha
      obtain ⟨_, b, hb, _⟩ := ((L.fls s).2 a).1 ha
      rw [List.append_nil] at hb
      exact ⟨b, header_of hids hti hb⟩
    rw [unlinkAll_ok 10 h'.fls hh, Res.ok_bind]
    refine ⟨_, rfl, ⟨hids', fun p hpm => (L.kept p hpm).1, fun p hpm => .inl (htail p hpm), hrem, ?_, hall, hfree⟩,
      hquiet, hlive⟩
    intro s
    obtain ⟨f1, f2⟩ := L.fls s
    simp only [List.append_nil] at f2
    by_cases hs : s < 10
    · simp only [if_pos hs]
      refine ⟨f1.filter _, ?_⟩
      intro a
      rw [List.mem_filter, f2 a, F_append]
      constructor
      · rintro ⟨⟨h9, h1 | ⟨b, h1, h2, h3⟩⟩, hmk⟩
        · exact ⟨h9, h1⟩
        · rw [header_of hids hti (blockAt_append.2 (.inr h1))] at hmk
          obtain ⟨p, hpT, _, hpm⟩ := h1
          have := (L.freed p hpT).2 _ _ hpm h2
          simp [this] at hmk
      · rintro ⟨h9, b, h1, h2, h3⟩
        refine ⟨⟨h9, .inl ⟨b, h1, h2, h3⟩⟩, ?_⟩
        rw [header_of hids hti (blockAt_append.2 (.inl h1))]
        obtain ⟨p, hpm, _, hm⟩ := h1
        simpa using (L.kept p hpm).1.fl _ _ hm h2
    · simp only [if_neg hs]
      refine ⟨f1, ?_⟩
      intro a
      rw [f2 a]
      constructor
      · rintro ⟨h1, _⟩; omega
      · rintro ⟨h1, _⟩; omega

/-- The marking phase only changes mark bits. -/
theorem setMarks_ok {item : Nat} {h : Heap} (w : WF item none h) (m : Addr → Bool) :
    WF item none (setMarks h m) ∧
      ∀ a c, Live (setMarks h m) a c ↔ ∃ b, Live h a b ∧ c = { b with mark := m a } := by
  let g : Page → Page := fun p =>
    { p with cells := fun o => (p.cells o).map fun b => if b.fl then b else { b with mark := m (p.id, o) } }
  have hpages : (setMarks h m).pages = h.pages.map g := rfl
  have hti : ∀ p ∈ h.pages, Tiles (g p).cells (g p).used 0
      ((layout p).map fun q => (q.1, if q.2.fl then q.2 else { q.2 with mark := m (p.id, q.1) })) := by
    intro p hp
    refine (w.page p hp).tiles.change _ (fun o b => if b.fl then b else { b with mark := m (p.id, o) }) ?_
    intro o b hm
    refine ⟨?_, by split <;> rfl⟩
    show ((p.cells o).map _) = _
    rw [((w.page p hp).tiles.mem hm).1]; rfl
  have hlay : ∀ p ∈ h.pages, layout (g p) =
      (layout p).map fun q => (q.1, if q.2.fl then q.2 else { q.2 with mark := m (p.id, q.1) }) :=
    fun p hp => layout_eq (hti p hp)
  have hmem : ∀ p ∈ h.pages, ∀ o c, (o, c) ∈ layout (g p) ↔ ∃ b, (o, b) ∈ layout p ∧
      c = if b.fl then b else { b with mark := m (p.id, o) } := by
    intro p hp o c
    rw [hlay p hp, List.mem_map]
    constructor
    · rintro ⟨⟨o', b⟩, hb, he⟩
      simp only [Prod.mk.injEq] at he
      obtain ⟨rfl, rfl⟩ := he
      exact ⟨b, hb, rfl⟩
    · rintro ⟨b, hb, rfl⟩
      exact ⟨(o, b), hb, rfl⟩
  have hids : ((h.pages.map g).map (·.id)) = h.pages.map (·.id) := by
    rw [List.map_map]; rfl
  have hblk : ∀ a c, BlockAt (h.pages.map g) a c ↔ ∃ b, BlockAt h.pages a b ∧ c = if b.fl then b else { b with mark := m a } := by
    intro a c
    unfold BlockAt
    constructor
    · rintro ⟨r, hr, hid, hm⟩
      obtain ⟨p, hp, rfl⟩ := List.mem_map.1 hr
      obtain ⟨b, hb, he⟩ := (hmem p hp _ _).1 hm
      have hid' : p.id = a.1 := hid
      refine ⟨b, ⟨p, hp, hid', hb⟩, ?_⟩
      rw [he, hid']
    · rintro ⟨b, ⟨p, hp, hid, hb⟩, he⟩
      refine ⟨g p, List.mem_map.2 ⟨p, hp, rfl⟩, hid, (hmem p hp _ _).2 ⟨b, hb, ?_⟩⟩
      rw [he, hid]
  have hflb : ∀ l : List (Nat × Block), ∀ i, flBytes (l.map fun q => (q.1, if q.2.fl then q.2 else { q.2 with mark := m (i, q.1) })) = flBytes l := by
    intro l i
    induction l with
    | nil => rfl
    | cons q l ih =>
      obtain ⟨o, b⟩ := q
      simp only [List.map_cons, flBytes, ih]
      by_cases hf : b.fl = true
      · simp [hf]
      · simp [hf]
  refine ⟨⟨?_, ?_, ?_, ?_, ?_, ?_, ?_⟩, ?_⟩
  · rw [hpages, hids]; exact w.ids
  · rw [hpages]
    intro r hr
    obtain ⟨p, hp, rfl⟩ := List.mem_map.1 hr
    have hpo := w.page p hp
    refine ⟨by rw [hlay p hp]; exact hti p hp, hpo.used, hpo.dvdSize, ?_, ?_, ?_⟩
    · intro o c hm
      obtain ⟨b, hb, rfl⟩ := (hmem p hp o c).1 hm
      have := hpo.dvd o b hb
      split <;> exact this
    · intro o c hm
      obtain ⟨b, hb, rfl⟩ := (hmem p hp o c).1 hm
      rcases hpo.range o b hb with h1 | ⟨h1, h2, h3, h4⟩
      · left; rw [inRange_iff] at h1 ⊢; split <;> exact h1
      · right
        rw [h1]
        exact ⟨by simpa using h1, h2, h3, h4⟩
    · intro o c hm hf
      obtain ⟨b, hb, rfl⟩ := (hmem p hp o c).1 hm
      by_cases h1 : b.fl = true
      · rw [if_pos h1]; exact hpo.fl o b hb h1
      · rw [if_neg h1] at hf; exact absurd hf h1
  · rw [hpages, ← List.map_tail]
    intro r hr
    obtain ⟨p, hp, rfl⟩ := List.mem_map.1 hr
    exact w.tail p hp
  · rw [hpages]
    intro r hr
    obtain ⟨p, hp, rfl⟩ := List.mem_map.1 hr
    exact w.rem p hp
  · intro s
    refine ⟨(w.fls s).1, ?_⟩
    intro a
    rw [hpages]
    rw [show (setMarks h m).fls s = h.fls s from rfl, (w.fls s).2 a]
    constructor
    · rintro ⟨h9, b, h1, h2, h3⟩
      exact ⟨h9, b, (hblk a b).2 ⟨b, h1, by rw [if_pos h2]⟩, h2, h3⟩
    · rintro ⟨h9, c, h1, h2, h3⟩
      obtain ⟨b, h4, rfl⟩ := (hblk a c).1 h1
      by_cases h5 : b.fl = true
      · rw [if_pos h5] at h3; exact ⟨h9, b, h4, h5, h3⟩
      · rw [if_neg h5] at h2; exact absurd h2 h5
  · show h.alloced = _
    rw [w.alloced, hpages]
    unfold sizes
    rw [List.map_map]; rfl
  · show h.free = _
    rw [w.free, hpages]
    unfold frees
    rw [List.map_map]
    congr 2
    apply List.map_congr_left
    intro p hp
    simp only [Function.comp, freeBytes]
    rw [hlay p hp, hflb]
  · intro a c
    unfold Live
    rw [hpages, hblk]
    constructor
    · rintro ⟨⟨b, h1, rfl⟩, h2⟩
      by_cases h5 : b.fl = true
      · rw [if_pos h5, h5] at h2; simp at h2
      · rw [if_neg h5]; exact ⟨b, ⟨h1, by simpa using h5⟩, rfl⟩
    · rintro ⟨b, ⟨h1, h2⟩, rfl⟩
      exact ⟨⟨b, h1, by rw [h2]; rfl⟩, h2⟩

/-! ## Specification: histories -/

/-- The states that can be reached: nodes of arbitrary sizes are allocated and constructed (on pages delivered by
the system that are not in use), and collections sweep after an arbitrary marking. -/
inductive Reach (item : Nat) : Heap → Prop
  | init : Reach item Heap.init
  | new {h h' : Heap} {size pid data : Nat} {a : Addr} : Reach item h → 0 < size → pid ∉ h.pages.map (·.id) →
      gcAlloc item h size pid = .ok (a, h') → Reach item (construct h' a size data)
  | gc {h h' : Heap} {m : Addr → Bool} : Reach item h → sweep item (setMarks h m) = .ok h' → Reach item h'

theorem wf_init (item : Nat) : WF item none Heap.init := by
  refine ⟨by simp [Heap.init], by simp [Heap.init], by simp [Heap.init], by simp [Heap.init], ?_, rfl, rfl⟩
  intro s
  simp [Heap.init, BlockAt]

theorem reach_wf {item : Nat} (hi : item % 8 = 0) {h : Heap} (r : Reach item h) : WF item none h ∧ Quiet h := by
  induction r with
  | init => exact ⟨wf_init item, by simp [Quiet, Heap.init]⟩
  | @new h h' size pid data a _ hs hp he ih =>
    obtain ⟨a', h'', e, _, w, q, _⟩ := new_ok hi ih.1 ih.2 hs hp data
    rw [e] at he; cases he
    exact ⟨w, q⟩
  | @gc h h' m _ he ih =>
    obtain ⟨h'', e, w, q, _⟩ := sweep_ok hi (setMarks_ok ih.1 m).1
    rw [e] at he; cases he
    exact ⟨w, q⟩

/-! ## C27 -/

/-- **C27**. In every reachable state two different nodes do not overlap, and every node lies within its page. -/
theorem _root_.MZ.C27_no_overlap {item : Nat} (hi : item % 8 = 0) {h : Heap} (r : Reach item h) {a a' : Addr} {b b' : Block}
    (hb : Live h a b) (hb' : Live h a' b') :
    (∃ p ∈ h.pages, p.id = a.1 ∧ a.2 + b.size ≤ p.size) ∧
    ((a = a' ∧ b = b') ∨ a.1 ≠ a'.1 ∨ a.2 + b.size ≤ a'.2 ∨ a'.2 + b'.size ≤ a.2) := by
  have w := (reach_wf hi r).1
  obtain ⟨⟨p, hp, hid, hm⟩, _⟩ := hb
  obtain ⟨⟨p', hp', hid', hm'⟩, _⟩ := hb'
  have hpo := w.page p hp
  refine ⟨⟨p, hp, hid, ?_⟩, ?_⟩
  · have := (hpo.tiles.mem hm).2.2.2
    have := hpo.used
    omega
  · by_cases he : a.1 = a'.1
    · have : p = p' := page_unique w.ids hp hp' (by rw [hid, hid', he])
      subst this
      rcases hpo.tiles.disjoint hm hm' with ⟨h1, h2⟩ | h1 | h1
      · exact .inl ⟨Prod.ext he h1, h2⟩
      · exact .inr (.inr (.inl h1))
      · exact .inr (.inr (.inr h1))
    · exact .inr (.inl he)

/-- **C27**. Allocation never fails (no assertion, no walk through garbage). The new node is at an address that was
not in use, has the size asked for, and all other nodes are unchanged. -/
theorem _root_.MZ.C27_allocate {item : Nat} (hi : item % 8 = 0) {h : Heap} (r : Reach item h) {size pid : Nat} (hs : 0 < size)
    (hp : pid ∉ h.pages.map (·.id)) (data : Nat) :
    ∃ a h', gcAlloc item h size pid = .ok (a, h') ∧ (∀ c, ¬ Live h a c) ∧
      ∀ a' c, Live (construct h' a size data) a' c ↔
        Live h a' c ∨ (a' = a ∧ c = ⟨align size, false, false, data⟩) := by
  obtain ⟨w, q⟩ := reach_wf hi r
  obtain ⟨a, h', e, n, _, _, l⟩ := new_ok hi w q hs hp data
  exact ⟨a, h', e, n, l⟩

/-- **C27**. A collection never fails, and afterwards exactly the marked nodes are live, at the same addresses and
with the same contents. -/
theorem _root_.MZ.C27_sweep {item : Nat} (hi : item % 8 = 0) {h : Heap} (r : Reach item h) (m : Addr → Bool) :
    ∃ h', sweep item (setMarks h m) = .ok h' ∧ ∀ a b, Live h' a b ↔ Live h a b ∧ m a = true := by
  obtain ⟨w, q⟩ := reach_wf hi r
  obtain ⟨wm, lm⟩ := setMarks_ok w m
  obtain ⟨h', e, _, _, l⟩ := sweep_ok hi wm
  refine ⟨h', e, ?_⟩
  intro a c
  have hq : ∀ b, Live h a b → b.mark = false := by
    rintro b ⟨⟨p, hp, _, hm⟩, hf⟩
    exact q p hp _ b hm hf
  rw [l a c]
  constructor
  · rintro ⟨d, hd, hdm, rfl⟩
    obtain ⟨b, hb, rfl⟩ := (lm a d).1 hd
    have := hq b hb
    simp only at hdm ⊢
    rw [← this]
    exact ⟨hb, hdm⟩
  · rintro ⟨hb, hma⟩
    refine ⟨{ c with mark := m a }, (lm a _).2 ⟨c, hb, rfl⟩, hma, ?_⟩
    have := hq c hb
    simp only
    rw [← this]

/-- Total size of the live nodes: a sum over the pages of the nodes found there. -/
def liveBytes (h : Heap) : Nat := nodes h.pages

/-- **C27**. The two counters are exact: allocated memory is the total size of the pages, and what is not free is
exactly the memory of the live nodes. In particular the counters never underflow. -/
theorem _root_.MZ.C27_accounting {item : Nat} (hi : item % 8 = 0) {h : Heap} (r : Reach item h) :
    h.alloced = (h.pages.map (·.size)).sum ∧ h.alloced - h.free = liveBytes h ∧ 0 ≤ h.free ∧ h.free ≤ h.alloced := by
  obtain ⟨w, _⟩ := reach_wf hi r
  have := pages_sum w.page
  refine ⟨w.alloced, ?_, w.bound⟩
  rw [w.alloced, w.free]
  unfold liveBytes
  omega

/-- **C27**. The free lists contain exactly the free nodes of the right size, each once: no node in use is ever on
a free list. -/
theorem _root_.MZ.C27_free_lists {item : Nat} (hi : item % 8 = 0) {h : Heap} (r : Reach item h) (s : Nat) :
    (h.fls s).Nodup ∧ ∀ a ∈ h.fls s, (∀ b, ¬ Live h a b) ∧
      ∃ p ∈ h.pages, p.id = a.1 ∧ a.2 + flSize item s ≤ p.size ∧
        ∀ a' b', Live h a' b' → a'.1 = a.1 → a.2 + flSize item s ≤ a'.2 ∨ a'.2 + b'.size ≤ a.2 := by
  obtain ⟨w, _⟩ := reach_wf hi r
  refine ⟨(w.fls s).1, ?_⟩
  intro a ha
  obtain ⟨_, b, ⟨p, hp, hid, hm⟩, hf, hs⟩ := ((w.fls s).2 a).1 ha
  have hpo := w.page p hp
  refine ⟨?_, p, hp, hid, ?_, ?_⟩
  · rintro c ⟨⟨q, hq, hid', hm'⟩, hcf⟩
    have : q = p := page_unique w.ids hq hp (by rw [hid, hid'])
    subst this
    rw [hpo.tiles.inj hm' hm, hf] at hcf; simp at hcf
  · have := (hpo.tiles.mem hm).2.2.2
    have := hpo.used
    omega
  · rintro a' b' ⟨⟨q, hq, hid', hm'⟩, hcf⟩ he
    have : q = p := page_unique w.ids hq hp (by rw [hid, hid', he])
    subst this
    rcases hpo.tiles.disjoint hm hm' with ⟨_, h2⟩ | h1 | h1
    · rw [← h2, hf] at hcf; simp at hcf
    · left; omega
    · right; exact h1

/-- An allocation whose constructor never runs (an exception thrown while its arguments are evaluated): the memory
keeps the header written by `GC::alloc`. If the page contains no live node at the next collection, the free-memory
counter drops below zero (which the model reports as a violated assertion). -/
theorem _root_.MZ.C27_abandoned_allocation_underflow :
    ∃ a h', gcAlloc 24 Heap.init 40 0 = .ok (a, h') ∧ sweep 24 h' = .ub := by
  have e : gcAlloc 24 Heap.init 40 0 = .ok ((0, 0), ⟨[⟨0, 4194304, 40, set (fun _ => none) 0 (some ⟨40, true, false, 0⟩)⟩],
      fun _ => [], 4194304, 4194264⟩) := by
    have h1 : align 40 = 40 := by decide
    have hs : freelistSlot 24 40 = .ok 1 := by decide
    unfold gcAlloc
    simp only [h1]
    rw [if_neg (by decide)]
    unfold flAlloc
    rw [hs, Res.ok_bind]
    simp only [Heap.init]
    unfold alloc
    rw [if_neg (by decide)]
    simp only [h1, choosePage, allocPage, Res.ok_bind, Bool.false_eq_true, if_false]
    have hm : max 40 pageSize = 4194304 := by decide
    simp only [hm, emptyPage, List.find?_cons, beq_self_eq_true]
    rw [if_neg (by decide), if_neg (by decide), if_neg (by decide)]
    simp [write, setPage, set]
  refine ⟨_, _, e, ?_⟩
  unfold sweep
  simp only
  rw [sweepPages]
  have hw : walk (set (fun _ => none) 0 (some ⟨40, true, false, 0⟩)) 40 40 0 = .ok [(0, ⟨40, true, false, 0⟩)] := by
    have ht : Tiles (set (fun _ => none) 0 (some ⟨40, true, false, 0⟩)) 40 0 [(0, ⟨40, true, false, 0⟩)] :=
      .cons (by simp [set]) (by decide) .nil
    exact walk_of_tiles ht _ (by decide)
  simp only [hw, Res.ok_bind]
  rw [if_neg (by decide), if_pos (by decide), if_pos (by decide)]
  rfl

/-- Non-vacuity: an allocation, then a collection that keeps the node. -/
example : ∃ (h : Heap) (a : Addr) (b : Block), Reach 24 h ∧ Live h a b ∧ b.data = 7 := by
  obtain ⟨a, h', e, _, l⟩ := C27_allocate (item := 24) (by decide) .init (size := 40) (pid := 0) (by decide) (by simp [Heap.init]) 7
  have r := Reach.new (data := 7) .init (by decide) (by simp [Heap.init]) e
  obtain ⟨h'', e2, l2⟩ := C27_sweep (by decide) r fun _ => true
  exact ⟨h'', a, _, .gc r e2, (l2 _ _).2 ⟨(l _ _).2 (.inr ⟨rfl, rfl⟩), rfl⟩, rfl⟩

end GCHeap
end MZ
