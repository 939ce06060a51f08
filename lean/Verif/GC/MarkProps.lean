import Verif.GC.MarkLoop
import Verif.GC.HeapProps
/-!
# Theorems about the marking phase and whole collections (C27)
-/
namespace MZ
namespace GCMark
open GCHeap (Addr)

section
variable {H : Objs} {G : Addr → Prop}

theorem markSeq_ok' {D : Finset Addr} (hD : ∀ a, (H a).isSome → a ∈ D) (r : Region H G) (l : List Ptr) (s : Bits) (ok : OkS H G l) :
    ∃ n s', (∀ k, n ≤ k → markSeq H k s l = .ok s') ∧ Post H G s s' (refs l) :=
  markSeq_ok (D := D) (u := todo D s) (loop_ok hD r _) l s le_rfl ok

theorem markItem_ok {D : Finset Addr} (hD : ∀ a, (H a).isSome → a ∈ D) (r : Region H G) (s : Bits) {a : Addr} (ga : G a)
    (t : Root.Typed H (.item a)) : ∃ n s', (∀ k, n ≤ k → markItem H k s a = .ok s') ∧ Post H G s s' [a] := by
  obtain ⟨o, ho, ⟨loc, i, rfl⟩ | ⟨h, t, i, e, f, rfl⟩⟩ := t
  · exact item_step hD r (u := todo D s) (markSeq_ok (loop_ok hD r _)) (Nat.le_succ _) ga ho
  · by_cases hm : s.m a = true
    · refine ⟨1, s, ?_, ?_⟩
      · intro k hk
        obtain ⟨k, rfl⟩ : ∃ j, k = j + 1 := ⟨k - 1, by omega⟩
        simp [markItem, hm]
      · have := Post.refl (H := H) (G := G) s
        exact ⟨this.mono, by simpa using hm, this.sound, this.closed, this.vd⟩
    · have hm' : s.m a = false := by simpa using hm
      have ok := r.okM ga ho
      rw [Obj.members, OkM.append, OkM.append] at ok
      obtain ⟨d, hd, c⟩ := locMark_ok r ok.1.1
      have p1 := now_post d c s
      obtain ⟨n, s', e', p2⟩ := markSeq_ok' hD r [.ref a] (s.marks d) (by
        intro b hb
        rw [List.mem_singleton] at hb
        cases hb
        exact ⟨ga, _, ho, trivial⟩)
      refine ⟨n + 1, s', ?_, ?_⟩
      · intro k hk
        obtain ⟨k, rfl⟩ : ∃ j, k = j + 1 := ⟨k - 1, by omega⟩
        rw [markItem]
        simp only [hm', ho, hd, Res.ok_bind, Bool.false_eq_true, if_false]
        exact e' k (by omega)
      · refine (p1.trans p2).weaken ?_
        intro b hb
        rw [List.mem_singleton] at hb
        subst hb
        exact List.mem_append.2 (.inr (mem_refs.2 List.mem_cons_self))

theorem markRoots_ok {D : Finset Addr} (hD : ∀ a, (H a).isSome → a ∈ D) (r : Region H G) :
    ∀ (l : List Root) (s : Bits), (∀ x ∈ l, x.Typed H ∧ ∀ a ∈ x.addrs, G a) →
      ∃ n s', (∀ k, n ≤ k → markRoots H k s l = .ok s') ∧ Post H G s s' (l.flatMap Root.addrs) := by
  intro l
  induction l with
  | nil => intro s _; exact ⟨0, s, fun _ _ => rfl, Post.refl s⟩
  | cons x l ih =>
    intro s hl
    obtain ⟨tx, gx⟩ := hl x List.mem_cons_self
    have hl' : ∀ y ∈ l, y.Typed H ∧ ∀ a ∈ y.addrs, G a := fun y hy => hl y (List.mem_cons_of_mem _ hy)
    obtain ⟨n1, s1, e1, p1⟩ : ∃ n s1, (∀ k, n ≤ k → markRoots H k s (x :: l) = markRoots H k s1 l) ∧ Post H G s s1 x.addrs := by
      cases x with
      | str y =>
        have ok : OkM H G (opt .str y) := by
          cases y with
          | none => intro z hz; simp [opt] at hz
          | some y =>
            intro z hz
            simp only [opt, List.mem_singleton] at hz
            subst hz
            exact ⟨gx y (by simp [Root.addrs]), tx y rfl⟩
        obtain ⟨d, hd, c⟩ := strMark_ok (.inl rfl) ok
        refine ⟨0, s.marks d, ?_, (now_post d c s).weaken ?_⟩
        · intro k _
          rw [markRoots, hd, Res.ok_bind]
        · intro b hb
          cases y with
          | none => simp [Root.addrs] at hb
          | some y =>
            simp only [Root.addrs, Option.toList_some, List.mem_singleton] at hb
            subst hb
            rcases c.cover (b, .str) (by simp [opt]) with h | h | h
            · exact h
            · simp at h
            · simp at h
      | loc y =>
        have ok : OkM H G (opt .loc y) := by
          cases y with
          | none => intro z hz; simp [opt] at hz
          | some y =>
            intro z hz
            simp only [opt, List.mem_singleton] at hz
            subst hz
            exact ⟨gx y (by simp [Root.addrs]), tx y rfl⟩
        obtain ⟨d, hd, c⟩ := locMark_ok r ok
        refine ⟨0, s.marks d, ?_, (now_post d c s).weaken ?_⟩
        · intro k _
          rw [markRoots, hd, Res.ok_bind]
        · intro b hb
          cases y with
          | none => simp [Root.addrs] at hb
          | some y =>
            simp only [Root.addrs, Option.toList_some, List.mem_singleton] at hb
            subst hb
            rcases c.cover (b, .loc) (by simp [opt]) with h | h | h
            · exact h
            · simp at h
            · simp at h
      | expr p =>
        obtain ⟨n, s', e, q⟩ := markSeq_ok' hD r [p] s (by
          intro b hb
          rw [List.mem_singleton] at hb
          subst hb
          exact ⟨gx b (by simp [Root.addrs, ptr]), tx b rfl⟩)
        refine ⟨n, s', ?_, q.weaken ?_⟩
        · intro k hk
          rw [markRoots, e k hk, Res.ok_bind]
        · intro b hb
          rw [mem_refs, List.mem_singleton]
          cases p <;> simp [Root.addrs, ptr] at hb
          rw [hb]
      | item a =>
        obtain ⟨n, s', e, q⟩ := markItem_ok hD r s (gx a (by simp [Root.addrs])) tx
        refine ⟨n, s', ?_, q⟩
        intro k hk
        rw [markRoots, e k hk, Res.ok_bind]
    obtain ⟨n2, s2, e2, p2⟩ := ih s1 hl'
    refine ⟨max n1 n2, s2, ?_, ?_⟩
    · intro k hk
      rw [e1 k (by omega), e2 k (by omega)]
    · rw [List.flatMap_cons]
      exact p1.trans p2

end

/-- **C27**. Marking terminates without reading a node that does not exist, and marks exactly the nodes that are
reachable from a root. The second mark is given to exactly the reachable declarations. -/
theorem _root_.MZ.C27_mark {H : Objs} {src : Sources} (fin : ∃ D : Finset Addr, ∀ a, (H a).isSome → a ∈ D)
    (ty : ∀ a, Reach H src.roots a → TypedAt H a) (ts : src.Typed H) (hm : src.markers ≠ []) :
    ∃ n bits, (∀ k, n ≤ k → heapMark H k src = .ok bits) ∧ (∀ a, bits.m a = true ↔ Reach H src.roots a) ∧
      ∀ a, bits.vd a = true ↔ Reach H src.roots a ∧ ∃ h t i e f, H a = some (.expr h (.varDecl t i e f)) := by
  obtain ⟨D, hD⟩ := fin
  have r : Region H (Reach H src.roots) :=
    ⟨ty, fun a b ⟨x, hx, hr⟩ k => ⟨x, hx, hr.tail k⟩⟩
  have root : ∀ a ∈ src.roots, Reach H src.roots a := fun a ha => ⟨a, ha, .refl⟩
  obtain ⟨n1, s1, e1, p1⟩ := markSeq_ok' hD r src.keep .zero (by
    intro a ha
    refine ⟨root a ?_, ts.keep a ha⟩
    simp only [Sources.roots, List.mem_append]
    exact .inl (.inl (mem_refs.2 ha)))
  obtain ⟨n2, s2, e2, p2⟩ := markRoots_ok hD r src.markers.flatten s1 (by
    intro x hx
    refine ⟨ts.markers x hx, ?_⟩
    intro a ha
    apply root
    simp only [Sources.roots, List.mem_append]
    exact .inl (.inr (List.mem_flatMap.2 ⟨x, hx, ha⟩)))
  obtain ⟨n3, s3, e3, p3⟩ := markSeq_ok' hD r src.trail s2 (by
    intro a ha
    refine ⟨root a ?_, ts.trail a ha⟩
    simp only [Sources.roots, List.mem_append]
    exact .inr (mem_refs.2 ha))
  have q := (p1.trans p2).trans p3
  have hmk : ∀ a, s3.m a = true ↔ Reach H src.roots a := by
    intro a
    constructor
    · intro h
      rcases q.sound a h with h | h
      · simp [Bits.zero] at h
      · exact h
    · rintro ⟨x, hx, hr⟩
      induction hr with
      | refl => exact q.tgt x hx
      | @tail b c _ hbc ih => exact q.closed b ih (by simp [Bits.zero]) c hbc
  refine ⟨max n1 (max n2 n3), s3, ?_, hmk, ?_⟩
  · intro k hk
    unfold heapMark
    rw [e1 k (by omega), Res.ok_bind, if_neg (by simpa using hm), e2 k (by omega), Res.ok_bind, e3 k (by omega)]
  · intro a
    rw [q.vd, hmk]
    simp [Bits.zero, IsVd]

theorem live_finite {item : Nat} {h : GCHeap.Heap} (w : GCHeap.WF item none h) :
    ∃ D : Finset Addr, ∀ a b, GCHeap.Live h a b → a ∈ D := by
  refine ⟨(h.pages.flatMap fun p => (GCHeap.layout p).map fun ob => (p.id, ob.1)).toFinset, ?_⟩
  rintro ⟨i, o⟩ b ⟨⟨p, hp, hid, hm⟩, _⟩
  rw [List.mem_toFinset, List.mem_flatMap]
  refine ⟨p, hp, List.mem_map.2 ⟨(o, b), hm, ?_⟩⟩
  simp only at hid
  rw [← hid]

/-- **C27**. A collection (marking, then sweeping) never fails, keeps exactly the nodes that are reachable from a root
at their addresses and with their contents, and returns all others to the free store. -/
theorem _root_.MZ.C27_collect {item : Nat} (hi : item % 8 = 0) {h : GCHeap.Heap} (hr : GCHeap.Reach item h) {H : Objs} {src : Sources}
    (dom : ∀ a, (H a).isSome ↔ ∃ b, GCHeap.Live h a b)
    (ty : ∀ a, Reach H src.roots a → TypedAt H a) (ts : src.Typed H) (hm : src.markers ≠ []) :
    ∃ n bits h', (∀ k, n ≤ k → heapMark H k src = .ok bits) ∧ GCHeap.sweep item (GCHeap.setMarks h bits.m) = .ok h' ∧
      ∀ a b, GCHeap.Live h' a b ↔ GCHeap.Live h a b ∧ Reach H src.roots a := by
  obtain ⟨D, hD⟩ := live_finite (GCHeap.reach_wf hi hr).1
  obtain ⟨n, bits, e, hb, _⟩ := C27_mark ⟨D, fun a ha => by obtain ⟨b, hb⟩ := (dom a).1 ha; exact hD a b hb⟩ ty ts hm
  obtain ⟨h', e', l⟩ := C27_sweep hi hr bits.m
  refine ⟨n, bits, h', e, e', ?_⟩
  intro a b
  rw [l, hb]

/-- **C27**. After a collection the members of a live node are live. -/
theorem _root_.MZ.C27_members_live {H : Objs} {rs : List Addr} (ty : ∀ a, Reach H rs a → TypedAt H a)
    {a b : Addr} {o : Obj} {c : Cls} (ha : Reach H rs a) (ho : H a = some o) (hb : (b, c) ∈ o.members) :
    Reach H rs b ∧ ∃ o', H b = some o' ∧ Is o' c := by
  obtain ⟨x, hx, hr⟩ := ha
  exact ⟨⟨x, hx, hr.tail ⟨o, ho, c, hb⟩⟩, ty a ⟨x, hx, hr⟩ o ho b c hb⟩

theorem sweepFlat_eq {m : Addr → Bool} {vd : Addr → Bool} (hv : ∀ x, m x = false → vd x = false) :
    ∀ (l : List Addr) (flat : Addr → Option Addr),
      sweepFlat m l flat vd = (fun x => if x ∈ l then (if m x then (flat x).filter vd else none) else flat x, vd) := by
  intro l
  induction l with
  | nil => intro flat; simp [sweepFlat]
  | cons a l ih =>
    intro flat
    rw [sweepFlat]
    by_cases h : m a = true
    · rw [if_pos h, ih]
      congr 1
      funext x
      by_cases hxa : x = a
      · subst hxa
        cases hf : flat x with
        | none => simp [hf, h]
        | some f =>
          by_cases hvf : vd f = true
          · simp [hf, h, hvf, Option.filter]
          · simp [h, hvf, Option.filter]
      · cases hf : flat a with
        | none => simp [hxa]
        | some f =>
          by_cases hvf : vd f = true
          · simp [hxa, hvf]
          · simp [hxa, hvf]
    · have h' : m a = false := by simpa using h
      have hvd : (fun x => if x = a then false else vd x) = vd := by
        funext x
        split
        · rename_i hx; rw [hx, hv a h']
        · rfl
      rw [if_neg h, hvd, ih]
      congr 1
      funext x
      by_cases hxa : x = a
      · subst hxa; simp [h']
      · simp [hxa]

/-- **C27**. The flat version of a live declaration is kept if it is alive and forgotten otherwise, whatever the order
in which the nodes are swept; afterwards all second marks are reset. -/
theorem _root_.MZ.C27_flat {H : Objs} {rs : List Addr} {bits : Bits} (hm : ∀ a, bits.m a = true ↔ Reach H rs a)
    (hv : ∀ a, bits.vd a = true ↔ Reach H rs a ∧ ∃ h t i e f, H a = some (.expr h (.varDecl t i e f)))
    (l : List Addr) (hl : ∀ a, (∃ h t i e f, H a = some (.expr h (.varDecl t i e f))) ↔ a ∈ l)
    (ht : ∀ a f, Reach H rs a → flatOf H a = some f → f ∈ l) :
    (∀ a, (sweepVds bits.m l (flatOf H) bits.vd).2 a = false) ∧
    ∀ a, Reach H rs a → ∀ f, (sweepVds bits.m l (flatOf H) bits.vd).1 a = some f ↔ flatOf H a = some f ∧ Reach H rs f := by
  have hv' : ∀ x, bits.m x = false → bits.vd x = false := by
    intro x hx
    by_contra hc
    have := ((hv x).1 (by simpa using hc)).1
    rw [(hm x).2 this] at hx
    simp at hx
  unfold sweepVds
  rw [sweepFlat_eq hv']
  constructor
  · intro a
    simp only
    split
    · rfl
    · rename_i hn
      by_contra hc
      have hc' : bits.vd a = true := by simpa using hc
      obtain ⟨h1, h2⟩ := (hv a).1 hc'
      apply hn
      simp [(hl a).1 h2, (hm a).2 h1]
  · intro a ha f
    simp only
    by_cases hal : a ∈ l
    · rw [if_pos hal, if_pos ((hm a).2 ha)]
      rw [Option.filter_eq_some_iff]
      constructor
      · rintro ⟨h1, h2⟩
        exact ⟨h1, ((hv f).1 h2).1⟩
      · rintro ⟨h1, h2⟩
        exact ⟨h1, (hv f).2 ⟨h2, (hl f).2 (ht a f ha h1)⟩⟩
    · have : flatOf H a = none := by
        unfold flatOf
        split
        · rename_i h1
          exact absurd ((hl a).1 ⟨_, _, _, _, _, h1⟩) hal
        · rfl
      simp [hal, this]

/-! ## Concrete heaps -/

/-- A declaration with an initial value, two nodes that refer to each other, and an operator with a declared function. -/
def exObjs : Objs := fun a =>
  if a = (0, 0) then some (.expr ⟨none, []⟩ (.varDecl .null (.ref (0, 1)) (.ref (0, 2)) (some (0, 5))))
  else if a = (0, 1) then some (.expr ⟨none, []⟩ (.id (some (0, 3)) (.ref (0, 0))))
  else if a = (0, 2) then some (.expr ⟨none, []⟩ (.binOp .val (.ref (0, 1)) (some (0, 4))))
  else if a = (0, 3) then some .str
  else if a = (0, 4) then some (.item none (.functionI none .null none [] .null))
  else if a = (0, 5) then some (.expr ⟨none, []⟩ (.varDecl .null .null .null none))
  else none

/-- Members of the example. -/
theorem ex_members {a b : Addr} {o : Obj} {c : Cls} (h : exObjs a = some o) (hb : (b, c) ∈ o.members) :
    a ∈ [(0, 0), (0, 1), (0, 2)] ∧ b ∈ [(0, 0), (0, 1), (0, 2), (0, 3)] := by
  unfold exObjs at h
  split at h
  · rename_i ha; cases h; simp [Obj.members, Expr.members, opt, ptrs, ptr] at hb; subst ha
    rcases hb with ⟨rfl, _⟩ | ⟨rfl, _⟩ <;> simp
  split at h
  · rename_i ha; cases h; simp [Obj.members, Expr.members, opt, ptrs, ptr] at hb; subst ha
    rcases hb with ⟨rfl, _⟩ | ⟨rfl, _⟩ <;> simp
  split at h
  · rename_i ha; cases h; simp [Obj.members, Expr.members, opt, ptrs, ptr] at hb; subst ha
    rcases hb with ⟨rfl, _⟩; simp
  split at h
  · cases h; simp [Obj.members] at hb
  split at h
  · cases h; simp [Obj.members, Itm.members, opt, ptrs, ptr] at hb
  split at h
  · cases h; simp [Obj.members, Expr.members, opt, ptrs, ptr] at hb
  · simp at h

/-- Non-vacuity of the hypotheses, and **C27**: the declaration of an operator is not kept alive by the operator. -/
theorem _root_.MZ.C27_operator_decl_not_kept :
    ∃ (H : Objs) (src : Sources), (∃ D : Finset Addr, ∀ a, (H a).isSome → a ∈ D) ∧ (∀ a, TypedAt H a) ∧ src.Typed H ∧
      src.markers ≠ [] ∧ ∃ a b h e0 e1, H a = some (.expr h (.binOp e0 e1 (some b))) ∧ (H b).isSome ∧
        Reach H src.roots a ∧ ¬ Reach H src.roots b := by
  refine ⟨exObjs, ⟨[.ref (0, 0)], [[]], []⟩, ⟨{(0, 0), (0, 1), (0, 2), (0, 3), (0, 4), (0, 5)}, ?_⟩, ?_, ⟨?_, ?_, ?_⟩, by simp,
    (0, 2), (0, 4), ⟨none, []⟩, .val, .ref (0, 1), rfl, rfl, ⟨(0, 0), ?_, ?_⟩, ?_⟩
  · intro a ha
    unfold exObjs at ha
    simp only [Finset.mem_insert, Finset.mem_singleton]
    by_contra hc
    simp only [not_or] at hc
    obtain ⟨h0, h1, h2, h3, h4, h5⟩ := hc
    simp [h0, h1, h2, h3, h4, h5] at ha
  · intro a o ho b c hb
    unfold exObjs at ho
    split at ho
    · cases ho; simp [Obj.members, Expr.members, opt, ptrs, ptr] at hb
      rcases hb with ⟨rfl, rfl⟩ | ⟨rfl, rfl⟩ <;> exact ⟨_, rfl, trivial⟩
    split at ho
    · cases ho; simp [Obj.members, Expr.members, opt, ptrs, ptr] at hb
      rcases hb with ⟨rfl, rfl⟩ | ⟨rfl, rfl⟩ <;> exact ⟨_, rfl, trivial⟩
    split at ho
    · cases ho; simp [Obj.members, Expr.members, opt, ptrs, ptr] at hb
      rcases hb with ⟨rfl, rfl⟩; exact ⟨_, rfl, trivial⟩
    split at ho
    · cases ho; simp [Obj.members] at hb
    split at ho
    · cases ho; simp [Obj.members, Itm.members, opt, ptrs, ptr] at hb
    split at ho
    · cases ho; simp [Obj.members, Expr.members, opt, ptrs, ptr] at hb
    · simp at ho
  · intro a ha
    simp at ha
    subst ha
    exact ⟨_, rfl, trivial⟩
  · simp
  · simp
  · simp [Sources.roots, ptrs, ptr]
  · exact .tail .refl ⟨_, rfl, .expr, by simp [Obj.members, Expr.members, opt, ptrs, ptr]⟩
  · rintro ⟨x, hx, hr⟩
    simp [Sources.roots, ptrs, ptr] at hx
    subst hx
    rcases Relation.ReflTransGen.cases_tail hr with h | ⟨y, _, o, ho, c, hb⟩
    · simp at h
    · have := (ex_members ho hb).2
      simp at this

/-- **C27, C28**. Without a registered container the collector returns before it marks the trail: a value saved on the
trail is then not protected. -/
theorem _root_.MZ.C27_trail_needs_container :
    ∃ (H : Objs) (src : Sources) (a : Addr) (bits : Bits), .ref a ∈ src.trail ∧ (H a).isSome ∧
      (∀ k, 1 ≤ k → heapMark H k src = .ok bits) ∧ bits.m a = false := by
  refine ⟨exObjs, ⟨[], [], [.ref (0, 0)]⟩, (0, 0), .zero, by simp, rfl, ?_, rfl⟩
  intro k hk
  obtain ⟨k, rfl⟩ : ∃ j, k = j + 1 := ⟨k - 1, by omega⟩
  simp [heapMark, markSeq]

end GCMark
end MZ
