import Verif.GC.HeapLemmas
/-!
# Allocation preserves the invariant
-/
namespace MZ
namespace GCHeap

/-- A node in memory that is not a free-list node. -/
def Live (h : Heap) (a : Addr) (b : Block) : Prop := BlockAt h.pages a b ∧ b.fl = false

/-- The header written at an offset of a page. -/
def Page.put (p : Page) (o : Nat) (b : Block) : Page := { p with cells := set p.cells o (some b) }

theorem write_setPage (h : Heap) (q : Page) (l : List Page) (o : Nat) (b : Block) :
    write { h with pages := setPage q l } (q.id, o) b = { h with pages := setPage (q.put o b) l } := by
  unfold write setPage Page.put
  simp only [List.map_map]
  congr 1
  apply List.map_congr_left
  intro r _
  simp only [Function.comp]
  by_cases h : r.id = q.id
  · simp [h]
  · simp [h]

theorem set_set {α : Type} (f : Nat → α) (o : Nat) (x y : α) : set (set f o x) o y = set f o y := by
  funext k; unfold set; split <;> rfl

theorem put_put (p : Page) (o : Nat) (b c : Block) : (p.put o b).put o c = p.put o c := by
  unfold Page.put; simp only [set_set]

/-! ## Allocation at the end of a page -/

theorem bump {item : Nat} {x : Option Nat} {h : Heap} (w : WF item x h) {p : Page} (hp : p ∈ h.pages)
    (hx : x = none ∨ x = some p.id) {size : Nat} (b : Block) (hb : b.size = size) (hbf : b.fl = false) (h8 : size % 8 = 0)
    (hpos : 0 < size) (hfit : p.used + size ≤ p.size)
    (hr : inRange item b = true ∨ (p.used = 0 ∧ size = p.size))
    (ht : p ∈ h.pages.tail → p.used + size = p.size)
    (p' : Page) (hp' : p' = { p with
      used := p.used + size
      size := if p.size - (p.used + size) < flMin item then p.used + size else p.size
      cells := set p.cells p.used (some b) }) (fr al : Int)
    (hfr : fr = h.free - size - (if p.size - (p.used + size) < flMin item then ((p.size - (p.used + size) : Nat) : Int) else 0))
    (hal : al = h.alloced - (if p.size - (p.used + size) < flMin item then ((p.size - (p.used + size) : Nat) : Int) else 0)) :
    WF item none { h with pages := setPage p' h.pages, free := fr, alloced := al } ∧
    ∀ a c, BlockAt (setPage p' h.pages) a c ↔ BlockAt h.pages a c ∨ (a = (p.id, p.used) ∧ c = b) := by
  have hpo := w.page p hp
  have hid : p'.id = p.id := by rw [hp']
  have hex : ∃ q ∈ h.pages, q.id = p'.id := ⟨p, hp, hid.symm⟩
  have hti : Tiles p'.cells p'.used 0 (layout p ++ [(p.used, b)]) := by
    rw [hp']
    simp only
    rw [← hb]
    exact hpo.tiles.append b (by omega)
  have hlay : layout p' = layout p ++ [(p.used, b)] := layout_eq hti
  have hused : p'.used = p.used + size := by rw [hp']
  have hsize : p'.size = if p.size - (p.used + size) < flMin item then p.used + size else p.size := by rw [hp']
  have hbl : ∀ a c, BlockAt (setPage p' h.pages) a c ↔ BlockAt h.pages a c ∨ (a = (p.id, p.used) ∧ c = b) := by
    intro a c
    rw [blockAt_setPage hex, hlay, hid]
    obtain ⟨i, o⟩ := a
    simp only
    by_cases hi : i = p.id
    · subst hi
      rw [blockAt_iff w.ids hp]
      simp
    · simp [hi]
  refine ⟨⟨?_, ?_, ?_, ?_, ?_, ?_, ?_⟩, hbl⟩
  · show ((setPage p' h.pages).map (·.id)).Nodup
    rw [setPage_ids]; exact w.ids
  · intro q hq
    rcases mem_setPage.1 hq with ⟨h1, _⟩ | ⟨rfl, _⟩
    · exact w.page q h1
    · have hd := hpo.dvdSize
      refine ⟨by rw [hlay]; exact hti, ?_, ?_, ?_, ?_, ?_⟩
      · rw [hused, hsize]; split <;> omega
      · rw [hsize]
        split
        · have h0 := hpo.tiles.sum
          have : ∀ l : List (Nat × Block), (∀ o b, (o, b) ∈ l → b.size % 8 = 0) → sizeSum l % 8 = 0 := by
            intro l
            induction l with
            | nil => intro _; rfl
            | cons q l ih =>
              obtain ⟨o, b⟩ := q
              intro hl
              have h1 := hl o b (by simp)
              have h2 := ih fun o b hm => hl o b (by simp [hm])
              simp only [sizeSum]; omega
          have := this _ hpo.dvd
          omega
        · exact hd
      · intro o c hm
        rw [hlay] at hm
        rcases List.mem_append.1 hm with hm | hm
        · exact hpo.dvd o c hm
        · simp at hm; rw [hm.2, hb]; exact h8
      · intro o c hm
        rw [hlay] at hm
        rcases List.mem_append.1 hm with hm | hm
        · rcases hpo.range o c hm with h1 | ⟨_, _, _, h1⟩
          · exact .inl h1
          · omega
        · simp at hm
          obtain ⟨rfl, rfl⟩ := hm
          rcases hr with h1 | ⟨h1, h2⟩
          · exact .inl h1
          · refine .inr ⟨hbf, h1, by rw [hused, hb]; omega, ?_⟩
            rw [hused, hsize]; split <;> omega
      · intro o c hm
        rw [hlay] at hm
        rcases List.mem_append.1 hm with hm | hm
        · exact hpo.fl o c hm
        · simp at hm
          obtain ⟨rfl, rfl⟩ := hm
          rw [hbf]; simp
  · intro q hq
    simp only [setPage_tail] at hq
    rcases mem_setPage.1 hq with ⟨h1, h2⟩ | ⟨rfl, r, hr, hri⟩
    · rcases w.tail q h1 with h3 | h3
      · exact .inl h3
      · rcases hx with hx | hx
        · rw [hx] at h3; simp at h3
        · rw [hx, ← hid] at h3; exact absurd (Option.some.inj h3) h2
    · left
      have : r = p := page_unique w.ids (List.mem_of_mem_tail hr) hp (by rw [hri, hid])
      have := ht (this ▸ hr)
      rw [hused, hsize]; split <;> omega
  · intro q hq
    rcases mem_setPage.1 hq with ⟨h1, h2⟩ | ⟨rfl, _⟩
    · rcases w.rem q h1 with h3 | h3
      · rcases hx with hx | hx
        · rw [hx] at h3; simp at h3
        · rw [hx, ← hid] at h3; exact absurd (Option.some.inj h3) h2
      · exact .inr h3
    · right
      rw [hused, hsize]
      split
      · exact .inl rfl
      · exact .inr (by omega)
  · intro s
    refine ⟨(w.fls s).1, ?_⟩
    intro a
    simp only
    rw [(w.fls s).2 a]
    constructor
    · rintro ⟨h1, c, h2, h3⟩; exact ⟨h1, c, (hbl a c).2 (.inl h2), h3⟩
    · rintro ⟨h1, c, h2, h3⟩
      rcases (hbl a c).1 h2 with h2 | ⟨_, rfl⟩
      · exact ⟨h1, c, h2, h3⟩
      · rw [hbf] at h3; simp at h3
  · have := setPage_sum (·.size) w.ids hp hid
    show al = ((sizes (setPage p' h.pages) : Nat) : Int)
    rw [hal, w.alloced]
    unfold sizes
    rw [hsize] at this
    split at this <;> rename_i hc <;> simp only [hc, if_true, if_false] <;> omega
  · have := setPage_sum freeBytes w.ids hp hid
    show fr = ((frees (setPage p' h.pages) : Nat) : Int)
    rw [hfr, w.free]
    have h1 : freeBytes p' + size + (if p.size - (p.used + size) < flMin item then p.size - (p.used + size) else 0) =
        freeBytes p := by
      unfold freeBytes
      rw [hlay, flBytes_append, hused, hsize]
      simp only [flBytes, hbf, Bool.false_eq_true, if_false]
      by_cases hc : p.size - (p.used + size) < flMin item
      · rw [if_pos hc, if_pos hc]; omega
      · rw [if_neg hc, if_neg hc]; omega
    unfold frees
    split at h1 <;> rename_i hc <;> simp only [hc, if_true, if_false] <;> omega

/-! ## A new page -/

theorem layout_empty (pid s : Nat) : layout (emptyPage pid s) = [] := layout_eq .nil

theorem pageOk_empty (item pid s : Nat) (hs : s % 8 = 0) : PageOk item (emptyPage pid s) := by
  refine ⟨?_, Nat.zero_le _, hs, ?_, ?_, ?_⟩
  · rw [layout_empty]; exact .nil
  all_goals (intro o b h; rw [layout_empty] at h; simp at h)

theorem allocPage_ok {item : Nat} (hi : item % 8 = 0) {h : Heap} (w : WF item none h) (q : Quiet h) {s pid : Nat} {exact : Bool}
    (hs : s % 8 = 0) (hpid : pid ∉ h.pages.map (·.id))
    (hns : exact = false → ∀ p ps, h.pages = p :: ps → p.size - p.used ≤ flMax item) :
    ∃ h', allocPage item h s exact pid = .ok h' ∧ WF item (some pid) h' ∧ Quiet h' ∧
      emptyPage pid (if exact then s else max s pageSize) ∈ h'.pages ∧
      (exact = false → emptyPage pid (max s pageSize) ∉ h'.pages.tail) ∧
      ∀ a b, Live h' a b ↔ Live h a b := by
  generalize hS : (if exact then s else max s pageSize) = S
  have hS8 : S % 8 = 0 := by
    rw [← hS]
    unfold pageSize
    split
    · exact hs
    · rcases Nat.le_total s 4194304 with h | h
      · rw [Nat.max_eq_right h]
      · rw [Nat.max_eq_left h]; exact hs
  have hlive : ∀ (l l' : List Page), (∀ r, r ∈ l' ↔ r ∈ l ∨ r = emptyPage pid S) →
      ∀ a b, BlockAt l' a b ↔ BlockAt l a b := by
    intro l l' hl a b
    unfold BlockAt
    constructor
    · rintro ⟨r, hr, hid, hm⟩
      rcases (hl r).1 hr with hr | rfl
      · exact ⟨r, hr, hid, hm⟩
      · rw [layout_empty] at hm; simp at hm
    · rintro ⟨r, hr, hid, hm⟩; exact ⟨r, (hl r).2 (.inl hr), hid, hm⟩
  have hfe : freeBytes (emptyPage pid S) = S := by
    unfold freeBytes; rw [layout_empty]; simp [flBytes, emptyPage]
  have hnid : ∀ p ∈ h.pages, p.id ≠ pid := fun p hp e => hpid (List.mem_map.2 ⟨p, hp, e⟩)
  unfold allocPage
  simp only [hS]
  cases hpg : h.pages with
  | nil =>
    simp only
    refine ⟨_, rfl, ⟨?_, ?_, ?_, ?_, ?_, ?_, ?_⟩, ?_, ?_, ?_, ?_⟩
    · simp
    · intro p hp; simp at hp; rw [hp]; exact pageOk_empty _ _ _ hS8
    · intro p hp; simp at hp
    · intro p hp; simp at hp; rw [hp]; exact .inl rfl
    · intro s
      have := w.fls s
      rw [hpg] at this
      refine ⟨this.1, fun a => ?_⟩
      rw [this.2 a]
      simp only [hlive [] [emptyPage pid S] (by simp)]
    · simp only [w.alloced, hpg, sizes]; simp [emptyPage]
    · simp only [w.free, hpg, frees]; simp [hfe]
    · intro p hp o b hm; simp at hp; rw [hp, layout_empty] at hm; simp at hm
    · simp
    · simp
    · intro a b; unfold Live; rw [hlive [] [emptyPage pid S] (by simp), hpg]
  | cons p ps =>
    simp only
    by_cases he : exact = true
    · rw [if_pos he]
      have hmem : ∀ r, r ∈ p :: emptyPage pid S :: ps ↔ r ∈ p :: ps ∨ r = emptyPage pid S := by
        intro r; simp only [List.mem_cons]; tauto
      refine ⟨_, rfl, ⟨?_, ?_, ?_, ?_, ?_, ?_, ?_⟩, ?_, ?_, ?_, ?_⟩
      · have h1 := w.ids
        rw [hpg] at h1 hpid
        simp only [List.map_cons, List.nodup_cons, List.mem_cons, not_or, emptyPage] at h1 hpid ⊢
        exact ⟨⟨fun e => hpid.1 e.symm, h1.1⟩, hpid.2, h1.2⟩
      · intro r hr
        rcases (hmem r).1 hr with hr | rfl
        · exact w.page r (hpg ▸ hr)
        · exact pageOk_empty _ _ _ hS8
      · intro r hr
        simp only [List.tail_cons, List.mem_cons] at hr
        rcases hr with rfl | hr
        · exact .inr rfl
        · rcases w.tail r (by rw [hpg]; exact hr) with h1 | h1
          · exact .inl h1
          · simp at h1
      · intro r hr
        rcases (hmem r).1 hr with hr | rfl
        · rcases w.rem r (hpg ▸ hr) with h1 | h1
          · simp at h1
          · exact .inr h1
        · exact .inl rfl
      · intro s
        have := w.fls s
        rw [hpg] at this
        refine ⟨this.1, fun a => ?_⟩
        rw [this.2 a]
        simp only [hlive _ _ hmem]
      · simp only [w.alloced, hpg, sizes, List.map_cons, List.sum_cons]; simp [emptyPage]; omega
      · simp only [w.free, hpg, frees, List.map_cons, List.sum_cons, hfe]; push_cast; omega
      · intro r hr o b hm
        rcases (hmem r).1 hr with hr | rfl
        · exact q r (hpg ▸ hr) o b hm
        · rw [layout_empty] at hm; simp at hm
      · simp
      · intro h0; rw [he] at h0; simp at h0
      · intro a b; unfold Live; rw [hlive _ _ hmem, hpg]
    · rw [if_neg he]
      have he' : exact = false := by simpa using he
      have hns' := hns he' p ps hpg
      have hS' : S = max s pageSize := by rw [← hS, he']; rfl
      rw [if_neg (by omega)]
      have hpm : p ∈ h.pages := by rw [hpg]; simp
      have hpo := w.page p hpm
      have hpn := hnid p hpm
      have hids : ∀ p' : Page, p'.id = p.id → ((emptyPage pid S :: p' :: ps).map (·.id)).Nodup := by
        intro p' hp'
        have h1 := w.ids
        rw [hpg] at h1 hpid
        simp only [List.map_cons, List.nodup_cons, emptyPage, hp'] at h1 hpid ⊢
        exact ⟨hpid, h1⟩
      by_cases hge : p.size - p.used ≥ flMin item
      · rw [if_pos hge]
        have hsum8 : ∀ l : List (Nat × Block), (∀ o b, (o, b) ∈ l → b.size % 8 = 0) → sizeSum l % 8 = 0 := by
          intro l
          induction l with
          | nil => intro _; rfl
          | cons q l ih =>
            obtain ⟨o, b⟩ := q
            intro hl
            have h1 := hl o b (by simp)
            have h2 := ih fun o b hm => hl o b (by simp [hm])
            simp only [sizeSum]; omega
        have hu8 : p.used % 8 = 0 := by
          have h0 := hpo.tiles.sum
          have := hsum8 _ hpo.dvd
          omega
        have hd := hpo.dvdSize
        have hns8 : (p.size - p.used) % 8 = 0 := by omega
        obtain ⟨slot, hsl, hs9, hse⟩ := slot_ok hi hns8 hge hns'
        rw [hsl, Res.ok_bind]
        have hmin : 0 < flMin item := by unfold flMin flSize; omega
        generalize hp'def : ({ p with
          used := p.used + (p.size - p.used)
          cells := set p.cells p.used (some ⟨p.size - p.used, true, true, 0⟩) } : Page) = p'
        have hti : Tiles p'.cells p'.used 0 (layout p ++ [(p.used, ⟨p.size - p.used, true, true, 0⟩)]) := by
          rw [← hp'def]
          exact hpo.tiles.append ⟨p.size - p.used, true, true, 0⟩ (by simp only; omega)
        have hlay := layout_eq hti
        have hid' : p'.id = p.id := by rw [← hp'def]
        have hsz' : p'.size = p.size := by rw [← hp'def]
        have hus' : p'.used = p.size := by
          rw [← hp'def]; have := hpo.used; simp only; omega
        have hbl : ∀ a c, BlockAt (emptyPage pid S :: p' :: ps) a c ↔
            BlockAt h.pages a c ∨ (a = (p.id, p.used) ∧ c = ⟨p.size - p.used, true, true, 0⟩) := by
          intro a c
          rw [hpg]
          unfold BlockAt
          obtain ⟨i, o⟩ := a
          constructor
          · rintro ⟨r, hr, hid, hm⟩
            rcases List.mem_cons.1 hr with rfl | hr
            · rw [layout_empty] at hm; simp at hm
            · rcases List.mem_cons.1 hr with rfl | hr
              · rw [hlay] at hm
                rcases List.mem_append.1 hm with hm | hm
                · exact .inl ⟨p, by simp, by rw [← hid, hid'], hm⟩
                · simp at hm
                  right
                  refine ⟨?_, hm.2⟩
                  rw [hm.1, ← hid', hid]
              · exact .inl ⟨r, by simp [hr], hid, hm⟩
          · rintro (⟨r, hr, hid, hm⟩ | ⟨h1, h2⟩)
            · rcases List.mem_cons.1 hr with rfl | hr
              · exact ⟨p', by simp, by rw [hid', hid], by rw [hlay]; exact List.mem_append_left _ hm⟩
              · exact ⟨r, by simp [hr], hid, hm⟩
            · cases h1
              exact ⟨p', by simp, hid', by rw [hlay, h2]; simp⟩
        have hnew : ¬ ∃ c, BlockAt h.pages (p.id, p.used) c := by
          rintro ⟨c, hc⟩
          rw [blockAt_iff w.ids hpm] at hc
          have := hpo.tiles.mem hc
          omega
        refine ⟨_, rfl, ⟨hids p' hid', ?_, ?_, ?_, ?_, ?_, ?_⟩, ?_, ?_, ?_, ?_⟩
        · intro r hr
          rcases List.mem_cons.1 hr with rfl | hr
          · exact pageOk_empty _ _ _ hS8
          rcases List.mem_cons.1 hr with rfl | hr
          · refine ⟨by rw [hlay]; exact hti, by rw [hus', hsz'], by rw [hsz']; exact hd, ?_, ?_, ?_⟩
            · intro o c hm
              rw [hlay] at hm
              rcases List.mem_append.1 hm with hm | hm
              · exact hpo.dvd o c hm
              · simp at hm; rw [hm.2]; exact hns8
            · intro o c hm
              rw [hlay] at hm
              rcases List.mem_append.1 hm with hm | hm
              · rcases hpo.range o c hm with h1 | ⟨_, _, _, h1⟩
                · exact .inl h1
                · omega
              · simp at hm; rw [hm.2, inRange_iff]; exact .inl ⟨hge, hns'⟩
            · intro o c hm
              rw [hlay] at hm
              rcases List.mem_append.1 hm with hm | hm
              · exact hpo.fl o c hm
              · simp at hm; rw [hm.2]; simp
          · exact w.page r (by rw [hpg]; simp [hr])
        · intro r hr
          simp only [List.tail_cons, List.mem_cons] at hr
          rcases hr with rfl | hr
          · left; rw [hus', hsz']
          · rcases w.tail r (by rw [hpg]; exact hr) with h1 | h1
            · exact .inl h1
            · simp at h1
        · intro r hr
          rcases List.mem_cons.1 hr with rfl | hr
          · exact .inl rfl
          rcases List.mem_cons.1 hr with rfl | hr
          · right; left; rw [hus', hsz']
          · rcases w.rem r (by rw [hpg]; simp [hr]) with h1 | h1
            · simp at h1
            · exact .inr h1
        · intro s
          obtain ⟨f1, f2⟩ := w.fls s
          simp only [set]
          by_cases hss : s = slot
          · subst hss
            rw [if_pos rfl]
            constructor
            · rw [List.nodup_cons]
              refine ⟨?_, f1⟩
              rw [f2]
              rintro ⟨_, c, hc, _⟩
              exact hnew ⟨c, hc⟩
            · intro a
              rw [List.mem_cons, f2 a]
              constructor
              · rintro (rfl | ⟨h1, c, h2, h3⟩)
                · exact ⟨hs9, _, (hbl _ _).2 (.inr ⟨rfl, rfl⟩), rfl, hse⟩
                · exact ⟨h1, c, (hbl _ _).2 (.inl h2), h3⟩
              · rintro ⟨h1, c, h2, h3⟩
                rcases (hbl _ _).1 h2 with h2 | ⟨rfl, _⟩
                · exact .inr ⟨h1, c, h2, h3⟩
                · exact .inl rfl
          · rw [if_neg hss]
            refine ⟨f1, ?_⟩
            intro a
            rw [f2 a]
            constructor
            · rintro ⟨h1, c, h2, h3⟩; exact ⟨h1, c, (hbl _ _).2 (.inl h2), h3⟩
            · rintro ⟨h1, c, h2, h3⟩
              rcases (hbl _ _).1 h2 with h2 | ⟨_, rfl⟩
              · exact ⟨h1, c, h2, h3⟩
              · exact absurd (slot_inj (hse ▸ h3.2 : flSize item slot = flSize item s)).symm hss
        · simp only [w.alloced, hpg, sizes, List.map_cons, List.sum_cons, hsz']; simp [emptyPage]; omega
        · have hf' : freeBytes p' = freeBytes p := by
            unfold freeBytes
            rw [hlay, flBytes_append, hus', hsz']
            simp [flBytes]
          simp only [w.free, hpg, frees, List.map_cons, List.sum_cons, hfe, hf']; push_cast; omega
        · intro r hr o b hm
          rcases List.mem_cons.1 hr with rfl | hr
          · rw [layout_empty] at hm; simp at hm
          rcases List.mem_cons.1 hr with rfl | hr
          · rw [hlay] at hm
            rcases List.mem_append.1 hm with hm | hm
            · exact q p hpm o b hm
            · simp at hm; rw [hm.2]; simp
          · exact q r (by rw [hpg]; simp [hr]) o b hm
        · simp
        · intro _ hr
          simp only [List.tail_cons, List.mem_cons] at hr
          rcases hr with hr | hr
          · have := congrArg Page.id hr
            simp only [emptyPage, hid'] at this
            exact hpn this.symm
          · exact hnid (emptyPage pid (max s pageSize)) (by rw [hpg]; exact List.mem_cons_of_mem _ hr) rfl
        · intro a b
          unfold Live
          rw [hbl a b]
          constructor
          · rintro ⟨h1 | ⟨_, rfl⟩, h2⟩
            · exact ⟨h1, h2⟩
            · simp at h2
          · rintro ⟨h1, h2⟩; exact ⟨.inl h1, h2⟩
      · rw [if_neg hge]
        have hfull : p.used = p.size := by
          rcases w.rem p hpm with h1 | h1 | h1
          · simp at h1
          · exact h1
          · omega
        have hbd := w.bound
        have hz : p.size - p.used = 0 := by omega
        rw [if_neg (by rw [hz]; simp; omega), hz]
        have hmem : ∀ r, r ∈ emptyPage pid S :: p :: ps ↔ r ∈ p :: ps ∨ r = emptyPage pid S := by
          intro r; simp only [List.mem_cons]; tauto
        refine ⟨_, rfl, ⟨hids p rfl, ?_, ?_, ?_, ?_, ?_, ?_⟩, ?_, ?_, ?_, ?_⟩
        · intro r hr
          rcases (hmem r).1 hr with hr | rfl
          · exact w.page r (hpg ▸ hr)
          · exact pageOk_empty _ _ _ hS8
        · intro r hr
          simp only [List.tail_cons, List.mem_cons] at hr
          rcases hr with rfl | hr
          · exact .inl hfull
          · rcases w.tail r (by rw [hpg]; exact hr) with h1 | h1
            · exact .inl h1
            · simp at h1
        · intro r hr
          rcases (hmem r).1 hr with hr | rfl
          · rcases w.rem r (hpg ▸ hr) with h1 | h1
            · simp at h1
            · exact .inr h1
          · exact .inl rfl
        · intro s
          have := w.fls s
          rw [hpg] at this
          refine ⟨this.1, fun a => ?_⟩
          rw [this.2 a]
          simp only [hlive _ _ hmem]
        · simp only [w.alloced, hpg, sizes, List.map_cons, List.sum_cons]; simp [emptyPage]; omega
        · simp only [w.free, hpg, frees, List.map_cons, List.sum_cons, hfe]; push_cast; omega
        · intro r hr o b hm
          rcases (hmem r).1 hr with hr | rfl
          · exact q r (hpg ▸ hr) o b hm
          · rw [layout_empty] at hm; simp at hm
        · simp
        · intro _ hr
          simp only [List.tail_cons] at hr
          exact hnid (emptyPage pid (max s pageSize)) (by rw [hpg]; exact hr) rfl
        · intro a b; unfold Live; rw [hlive _ _ hmem, hpg]

end GCHeap
end MZ
