import Verif.GC.Heap
import Verif.Linear.Lemmas
/-!
# Lemmas about the heap model
-/
namespace MZ
namespace GCHeap

/-! ## Tiling of a page by nodes -/

/-- From `off` to `stop` the page is a sequence of nodes without gaps. -/
inductive Tiles (cells : Nat → Option Block) (stop : Nat) : Nat → List (Nat × Block) → Prop
  | nil : Tiles cells stop stop []
  | cons {off : Nat} {b : Block} {l : List (Nat × Block)} :
      cells off = some b → 0 < b.size → Tiles cells stop (off + b.size) l → Tiles cells stop off ((off, b) :: l)

theorem Tiles.le {cells stop off l} (h : Tiles cells stop off l) : off ≤ stop := by
  induction h with
  | nil => exact le_refl _
  | cons _ _ _ ih => omega

theorem walk_of_tiles {cells stop off l} (h : Tiles cells stop off l) :
    ∀ fuel, stop - off ≤ fuel → walk cells stop fuel off = .ok l := by
  induction h with
  | nil => intro fuel _; cases fuel <;> rw [walk] <;> simp
  | @cons off b l hc hb ht ih =>
    intro fuel hf
    have := ht.le
    cases fuel with
    | zero => omega
    | succ n =>
      rw [walk, if_pos (by omega)]
      simp only [hc]
      rw [if_neg (by omega), ih n (by omega)]
      rfl

theorem Tiles.mem {cells stop off l} (h : Tiles cells stop off l) :
    ∀ {o b}, (o, b) ∈ l → cells o = some b ∧ 0 < b.size ∧ off ≤ o ∧ o + b.size ≤ stop := by
  induction h with
  | nil => intro o b h; simp at h
  | @cons off b l hc hb ht ih =>
    intro o b' hm
    have := ht.le
    rcases List.mem_cons.1 hm with h | h
    · cases h; exact ⟨hc, hb, le_refl _, this⟩
    · obtain ⟨h1, h2, h3, h4⟩ := ih h
      exact ⟨h1, h2, by omega, h4⟩

/-- Different nodes do not overlap. -/
theorem Tiles.disjoint {cells stop off l} (h : Tiles cells stop off l) :
    ∀ {o b o' b'}, (o, b) ∈ l → (o', b') ∈ l → (o = o' ∧ b = b') ∨ o + b.size ≤ o' ∨ o' + b'.size ≤ o := by
  induction h with
  | nil => intro o b o' b' h; simp at h
  | @cons off b l hc hb ht ih =>
    intro o c o' c' h1 h2
    rcases List.mem_cons.1 h1 with h | h <;> rcases List.mem_cons.1 h2 with h' | h'
    · cases h; cases h'; exact .inl ⟨rfl, rfl⟩
    · cases h; exact .inr (.inl (ht.mem h').2.2.1)
    · cases h'; exact .inr (.inr (ht.mem h).2.2.1)
    · exact ih h h'

theorem Tiles.inj {cells stop off l} (h : Tiles cells stop off l) {o b b'} (h1 : (o, b) ∈ l) (h2 : (o, b') ∈ l) :
    b = b' := by
  have := (h.mem h1).1
  rw [(h.mem h2).1] at this
  exact (Option.some.inj this).symm

theorem Tiles.nodup {cells stop off l} (h : Tiles cells stop off l) : (l.map (·.1)).Nodup := by
  induction h with
  | nil => simp
  | @cons off b l hc hb ht ih =>
    rw [List.map_cons, List.nodup_cons]
    refine ⟨?_, ih⟩
    intro hm
    obtain ⟨⟨o, c⟩, hm, he⟩ := List.mem_map.1 hm
    have := (ht.mem hm).2.2.1
    simp only at he; omega

def sizeSum : List (Nat × Block) → Nat
  | [] => 0
  | (_, b) :: l => b.size + sizeSum l

/-- Bytes of the nodes that are not free-list nodes. -/
def nodeBytes : List (Nat × Block) → Nat
  | [] => 0
  | (_, b) :: l => (if b.fl then 0 else b.size) + nodeBytes l

theorem Tiles.sum {cells stop off l} (h : Tiles cells stop off l) : off + sizeSum l = stop := by
  induction h with
  | nil => simp [sizeSum]
  | cons _ _ _ ih => simp only [sizeSum]; omega

theorem bytes_sum (l : List (Nat × Block)) : flBytes l + nodeBytes l = sizeSum l := by
  induction l with
  | nil => rfl
  | cons p l ih =>
    obtain ⟨o, b⟩ := p
    simp only [flBytes, nodeBytes, sizeSum]
    split <;> omega

/-- Changing the headers without changing the sizes. -/
theorem Tiles.change {cells stop off l} (h : Tiles cells stop off l) (cells' : Nat → Option Block) (f : Nat → Block → Block)
    (hf : ∀ o b, (o, b) ∈ l → cells' o = some (f o b) ∧ (f o b).size = b.size) :
    Tiles cells' stop off (l.map fun p => (p.1, f p.1 p.2)) := by
  induction h with
  | nil => exact .nil
  | @cons off b l hc hb ht ih =>
    obtain ⟨h1, h2⟩ := hf off b (by simp)
    rw [List.map_cons]
    refine .cons h1 (by rw [h2]; exact hb) ?_
    simp only [h2]
    exact ih fun o b hm => hf o b (by simp [hm])

theorem Tiles.map {cells stop off l} (h : Tiles cells stop off l) (f : Block → Block) (hf : ∀ b, (f b).size = b.size) :
    Tiles (fun o => (cells o).map f) stop off (l.map fun p => (p.1, f p.2)) :=
  h.change _ (fun _ b => f b) fun o b hm => ⟨by simp [(h.mem hm).1], hf b⟩

theorem Tiles.append {cells stop off l} (h : Tiles cells stop off l) (b : Block) (hb : 0 < b.size) :
    Tiles (set cells stop (some b)) (stop + b.size) off (l ++ [(stop, b)]) := by
  induction h with
  | nil => exact .cons (by simp [set]) hb .nil
  | @cons off c l hc hc' ht ih =>
    have := ht.le
    refine .cons ?_ hc' ih
    unfold set
    rw [if_neg (by omega)]; exact hc

/-- Replacing the header of one node. -/
theorem Tiles.replace {cells stop off l} (h : Tiles cells stop off l) {o : Nat} {b : Block} (b' : Block) (hm : (o, b) ∈ l)
    (hs : b'.size = b.size) :
    Tiles (set cells o (some b')) stop off (l.map fun p => (p.1, if p.1 = o then b' else p.2)) := by
  refine h.change _ (fun k c => if k = o then b' else c) fun k c hk => ?_
  by_cases he : k = o
  · subst he
    have := h.inj hk hm
    subst this
    simp [set, hs]
  · simp [set, he, (h.mem hk).1]

/-! ## Layout of a page -/

/-- The nodes on a page. -/
def layout (p : Page) : List (Nat × Block) :=
  match walk p.cells p.used p.used 0 with
  | .ok l => l
  | _ => []

theorem layout_eq {p : Page} {l} (h : Tiles p.cells p.used 0 l) : layout p = l := by
  unfold layout
  rw [walk_of_tiles h _ (by omega)]

theorem walk_layout {p : Page} (h : Tiles p.cells p.used 0 (layout p)) :
    walk p.cells p.used p.used 0 = .ok (layout p) := walk_of_tiles h _ (by omega)

/-- A page is well formed. -/
structure PageOk (item : Nat) (p : Page) : Prop where
  tiles : Tiles p.cells p.used 0 (layout p)
  used : p.used ≤ p.size
  dvdSize : p.size % 8 = 0
  dvd : ∀ o b, (o, b) ∈ layout p → b.size % 8 = 0
  range : ∀ o b, (o, b) ∈ layout p → inRange item b = true ∨ (b.fl = false ∧ o = 0 ∧ b.size = p.used ∧ p.used = p.size)
  fl : ∀ o b, (o, b) ∈ layout p → b.fl = true → b.mark = true

/-- A node (or free-list node) at an address. -/
def BlockAt (ps : List Page) (a : Addr) (b : Block) : Prop := ∃ p ∈ ps, p.id = a.1 ∧ (a.2, b) ∈ layout p

/-- Free bytes on a page. -/
def freeBytes (p : Page) : Nat := flBytes (layout p) + (p.size - p.used)

def sizes (ps : List Page) : Nat := (ps.map (·.size)).sum
def frees (ps : List Page) : Nat := (ps.map freeBytes).sum
/-- Bytes occupied by nodes. -/
def nodes (ps : List Page) : Nat := (ps.map fun p => nodeBytes (layout p)).sum

theorem page_sum {item : Nat} {p : Page} (h : PageOk item p) : freeBytes p + nodeBytes (layout p) = p.size := by
  have h1 := h.tiles.sum
  have h2 := bytes_sum (layout p)
  have h3 := h.used
  unfold freeBytes; omega

theorem pages_sum {item : Nat} {ps : List Page} (h : ∀ p ∈ ps, PageOk item p) : frees ps + nodes ps = sizes ps := by
  induction ps with
  | nil => rfl
  | cons p ps ih =>
    have h1 := page_sum (h p (by simp))
    have h2 := ih fun q hq => h q (by simp [hq])
    simp only [frees, nodes, sizes, List.map_cons, List.sum_cons] at *
    omega

/-- The free lists contain exactly the free-list nodes, by size. -/
def FlOk (item : Nat) (ps : List Page) (fls : Nat → List Addr) : Prop :=
  ∀ s, (fls s).Nodup ∧ ∀ a, a ∈ fls s ↔ s ≤ 9 ∧ ∃ b, BlockAt ps a b ∧ b.fl = true ∧ b.size = flSize item s

/-- Well-formed heap; `x` is a page just obtained. -/
structure WF (item : Nat) (x : Option Nat) (h : Heap) : Prop where
  ids : (h.pages.map (·.id)).Nodup
  page : ∀ p ∈ h.pages, PageOk item p
  tail : ∀ p ∈ h.pages.tail, p.used = p.size ∨ some p.id = x
  rem : ∀ p ∈ h.pages, some p.id = x ∨ p.used = p.size ∨ flMin item ≤ p.size - p.used
  fls : FlOk item h.pages h.fls
  alloced : h.alloced = sizes h.pages
  free : h.free = frees h.pages

/-- No node is marked (between collections). -/
def Quiet (h : Heap) : Prop := ∀ p ∈ h.pages, ∀ o b, (o, b) ∈ layout p → b.fl = false → b.mark = false

theorem WF.bound {item x h} (w : WF item x h) : 0 ≤ h.free ∧ h.free ≤ h.alloced := by
  have := pages_sum w.page
  rw [w.alloced, w.free]
  omega

/-! ## Replacing a page -/

theorem mem_setPage {p' : Page} {l : List Page} {q : Page} :
    q ∈ setPage p' l ↔ (q ∈ l ∧ q.id ≠ p'.id) ∨ (q = p' ∧ ∃ p ∈ l, p.id = p'.id) := by
  unfold setPage
  rw [List.mem_map]
  constructor
  · rintro ⟨r, hr, h⟩
    by_cases he : r.id = p'.id
    · rw [if_pos he] at h; subst h; exact .inr ⟨rfl, r, hr, he⟩
    · rw [if_neg he] at h; subst h; exact .inl ⟨hr, he⟩
  · rintro (⟨h1, h2⟩ | ⟨rfl, p, hp, he⟩)
    · exact ⟨q, h1, by rw [if_neg h2]⟩
    · exact ⟨p, hp, by rw [if_pos he]⟩

theorem setPage_ids (p' : Page) (l : List Page) : (setPage p' l).map (·.id) = l.map (·.id) := by
  unfold setPage
  rw [List.map_map]
  apply List.map_congr_left
  intro q _
  simp only [Function.comp]
  split
  · rename_i h; exact h.symm
  · rfl

theorem page_unique {l : List Page} (hn : (l.map (·.id)).Nodup) {p q : Page} (hp : p ∈ l) (hq : q ∈ l)
    (h : p.id = q.id) : p = q := by
  induction l with
  | nil => simp at hp
  | cons r l ih =>
    rw [List.map_cons, List.nodup_cons] at hn
    rcases List.mem_cons.1 hp with h1 | h1 <;> rcases List.mem_cons.1 hq with h2 | h2
    · rw [h1, h2]
    · exact absurd (List.mem_map.2 ⟨q, h2, by rw [← h, h1]⟩) hn.1
    · exact absurd (List.mem_map.2 ⟨p, h1, by rw [h, h2]⟩) hn.1
    · exact ih hn.2 h1 h2

theorem find_page {l : List Page} (hn : (l.map (·.id)).Nodup) {p : Page} (hp : p ∈ l) :
    l.find? (·.id == p.id) = some p := by
  cases hf : l.find? (·.id == p.id) with
  | none => rw [List.find?_eq_none] at hf; exact absurd (beq_self_eq_true _) (hf p hp)
  | some q =>
    have h1 := List.mem_of_find?_eq_some hf
    have h2 := List.find?_some hf
    rw [page_unique hn h1 hp (by simpa using h2)]

theorem setPage_sum (f : Page → Nat) {p p' : Page} {l : List Page} (hn : (l.map (·.id)).Nodup) (hp : p ∈ l)
    (hid : p'.id = p.id) : ((setPage p' l).map f).sum + f p = (l.map f).sum + f p' := by
  induction l with
  | nil => simp at hp
  | cons q l ih =>
    rw [List.map_cons, List.nodup_cons] at hn
    have hnot : ∀ r : Page, r.id ∉ l.map (·.id) → p'.id = r.id → setPage p' l = l := by
      intro r hr he
      unfold setPage
      conv_rhs => rw [← List.map_id l]
      apply List.map_congr_left
      intro s hs
      rw [if_neg (fun e => hr (by rw [← he, ← e]; exact List.mem_map_of_mem hs))]; rfl
    rcases List.mem_cons.1 hp with rfl | hp'
    · have : setPage p' (p :: l) = p' :: l := by
        have := hnot p hn.1 hid
        unfold setPage at this ⊢
        rw [List.map_cons, this, if_pos hid.symm]
      rw [this]
      simp only [List.map_cons, List.sum_cons]; omega
    · have hne : q.id ≠ p'.id := fun e => hn.1 (by rw [e, hid]; exact List.mem_map_of_mem hp')
      have : setPage p' (q :: l) = q :: setPage p' l := by
        unfold setPage; rw [List.map_cons, if_neg hne]
      rw [this]
      simp only [List.map_cons, List.sum_cons]
      have := ih hn.2 hp'
      omega

theorem setPage_tail (p' : Page) (l : List Page) : (setPage p' l).tail = setPage p' l.tail := by
  unfold setPage; rw [List.map_tail]

theorem blockAt_setPage {p' : Page} {l : List Page} (he : ∃ p ∈ l, p.id = p'.id) {a : Addr} {b : Block} :
    BlockAt (setPage p' l) a b ↔ (a.1 ≠ p'.id ∧ BlockAt l a b) ∨ (a.1 = p'.id ∧ (a.2, b) ∈ layout p') := by
  unfold BlockAt
  constructor
  · rintro ⟨q, hq, hid, hm⟩
    rcases mem_setPage.1 hq with ⟨h1, h2⟩ | ⟨rfl, _⟩
    · exact .inl ⟨by rw [← hid]; exact h2, q, h1, hid, hm⟩
    · exact .inr ⟨hid.symm, hm⟩
  · rintro (⟨hne, q, hq, hid, hm⟩ | ⟨hid, hm⟩)
    · exact ⟨q, mem_setPage.2 (.inl ⟨hq, by rw [hid]; exact hne⟩), hid, hm⟩
    · exact ⟨p', mem_setPage.2 (.inr ⟨rfl, he⟩), hid.symm, hm⟩

theorem blockAt_iff {l : List Page} (hn : (l.map (·.id)).Nodup) {p : Page} (hp : p ∈ l) {o : Nat} {b : Block} :
    BlockAt l (p.id, o) b ↔ (o, b) ∈ layout p := by
  constructor
  · rintro ⟨q, hq, hid, hm⟩
    rw [page_unique hn hq hp hid] at hm; exact hm
  · intro h; exact ⟨p, hp, rfl, h⟩

/-! ## Sizes -/

theorem align_mod (n : Nat) : align n % 8 = 0 := by unfold align; omega
theorem align_ge (n : Nat) : n ≤ align n := by unfold align; omega
theorem align_lt (n : Nat) : align n < n + 8 := by unfold align; omega
theorem align_eq {n : Nat} (h : n % 8 = 0) : align n = n := by unfold align; omega

theorem slot_ok {item size : Nat} (hi : item % 8 = 0) (hs : size % 8 = 0) (h1 : flMin item ≤ size) (h2 : size ≤ flMax item) :
    ∃ s, freelistSlot item size = .ok s ∧ s ≤ 9 ∧ size = flSize item s := by
  unfold freelistSlot
  unfold flMin flMax flSize at *
  rw [if_neg (by omega), if_neg (by omega)]
  exact ⟨_, rfl, by omega, by omega⟩

theorem slot_inj {item s t : Nat} (h : flSize item s = flSize item t) : s = t := by unfold flSize at h; omega

theorem inRange_iff {item : Nat} {b : Block} : inRange item b = true ↔ flMin item ≤ b.size ∧ b.size ≤ flMax item := by
  unfold inRange
  simp

/-! ## Bytes under changes of the layout -/

theorem flBytes_append (l m : List (Nat × Block)) : flBytes (l ++ m) = flBytes l + flBytes m := by
  induction l with
  | nil => simp [flBytes]
  | cons p l ih => obtain ⟨o, b⟩ := p; simp only [List.cons_append, flBytes, ih]; omega

/-- Replacing one node: difference of the bytes in free-list nodes. -/
theorem flBytes_replace {l : List (Nat × Block)} {o : Nat} {b b' : Block} (hn : (l.map (·.1)).Nodup) (hm : (o, b) ∈ l) :
    flBytes (l.map fun p => (p.1, if p.1 = o then b' else p.2)) + (if b.fl then b.size else 0) =
      flBytes l + (if b'.fl then b'.size else 0) := by
  induction l with
  | nil => simp at hm
  | cons p l ih =>
    obtain ⟨k, c⟩ := p
    rw [List.map_cons, List.nodup_cons] at hn
    simp only [List.map_cons, flBytes]
    rcases List.mem_cons.1 hm with h | h
    · cases h
      have hsame : (l.map fun p : Nat × Block => (p.1, if p.1 = o then b' else p.2)) = l := by
        conv_rhs => rw [← List.map_id l]
        apply List.map_congr_left
        intro q hq
        have : q.1 ≠ o := fun e => hn.1 (List.mem_map.2 ⟨q, hq, e⟩)
        rw [if_neg this]; rfl
      rw [hsame]
      simp only [if_true]; omega
    · have hne : k ≠ o := fun e => hn.1 (List.mem_map.2 ⟨(o, b), h, e.symm⟩)
      have := ih hn.2 h
      simp only [if_neg hne]; omega

end GCHeap
end MZ
