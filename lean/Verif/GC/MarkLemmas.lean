import Verif.GC.MarkSpec
import Verif.Linear.Lemmas
import Mathlib.Data.Finset.Card
import Mathlib.Data.Finset.Filter
/-!
# Lemmas for the marking phase
-/
namespace MZ
namespace GCMark
open GCHeap (Addr)

/-- A set of nodes closed under `Keeps` in which the heap is well typed. -/
structure Region (H : Objs) (G : Addr → Prop) : Prop where
  typed : ∀ a, G a → TypedAt H a
  closed : ∀ a b, G a → Keeps H a b → G b

/-- All listed members are in the region and of the right class. -/
def OkM (H : Objs) (G : Addr → Prop) (ms : List (Addr × Cls)) : Prop :=
  ∀ x ∈ ms, G x.1 ∧ ∃ o, H x.1 = some o ∧ Is o x.2

/-- The marks on the spot, pushes and recursive calls of a step account for the members `ms`. -/
structure Cov (H : Objs) (G : Addr → Prop) (ms : List (Addr × Cls)) (st : Step) : Prop where
  cover : ∀ x ∈ ms, x.1 ∈ st.now ∨ .ref x.1 ∈ st.push ∨ st.fn = some x.1
  now : ∀ x ∈ st.now, G x ∧ (∀ o, H x = some o → ¬ Is o .expr) ∧ ∀ z, Keeps H x z → z ∈ st.now ∨ .ref z ∈ st.push
  push : ∀ q ∈ st.push, q ≠ .null ∧ ∀ a, q = .ref a → G a ∧ ∃ o, H a = some o ∧ Is o .expr
  fn : ∀ f, st.fn = some f → G f ∧ ∃ o, H f = some o ∧ Is o .fn

theorem OkM.append {H : Objs} {G : Addr → Prop} {l l' : List (Addr × Cls)} :
    OkM H G (l ++ l') ↔ OkM H G l ∧ OkM H G l' := by
  simp only [OkM, List.mem_append]
  constructor
  · intro h; exact ⟨fun x hx => h x (.inl hx), fun x hx => h x (.inr hx)⟩
  · rintro ⟨h1, h2⟩ x (hx | hx)
    · exact h1 x hx
    · exact h2 x hx

theorem OkM.cons {H : Objs} {G : Addr → Prop} {x : Addr × Cls} {l' : List (Addr × Cls)} :
    OkM H G (x :: l') ↔ OkM H G [x] ∧ OkM H G l' := OkM.append (l := [x])

theorem Region.okM {H : Objs} {G : Addr → Prop} (r : Region H G) {a : Addr} {o : Obj} (ga : G a) (h : H a = some o) :
    OkM H G o.members := by
  rintro ⟨b, c⟩ hx
  exact ⟨r.closed a b ga ⟨o, h, c, hx⟩, r.typed a ga o h b c hx⟩

section
variable {H : Objs} {G : Addr → Prop}

theorem Cov.nil : Cov H G [] ⟨[], [], none⟩ :=
  ⟨by simp, by simp, by simp, by simp⟩

/-- Combination of two steps. -/
theorem Cov.add {m1 m2 ms : List (Addr × Cls)} {s1 s2 s : Step} (c1 : Cov H G m1 s1) (c2 : Cov H G m2 s2)
    (hms : ∀ x ∈ ms, x ∈ m1 ∨ x ∈ m2) (hn : ∀ x, x ∈ s.now ↔ x ∈ s1.now ∨ x ∈ s2.now)
    (hp : ∀ x, x ∈ s.push ↔ x ∈ s1.push ∨ x ∈ s2.push)
    (hf : ∀ f, s.fn = some f ↔ s1.fn = some f ∨ s2.fn = some f) : Cov H G ms s := by
  refine ⟨?_, ?_, ?_, ?_⟩
  · intro x hx
    rw [hn, hp, hf]
    rcases hms x hx with h | h
    · rcases c1.cover x h with h | h | h <;> simp [h]
    · rcases c2.cover x h with h | h | h <;> simp [h]
  · intro x hx
    rcases (hn x).1 hx with h | h
    · obtain ⟨g, e, k⟩ := c1.now x h
      refine ⟨g, e, fun z hz => ?_⟩
      rw [hn, hp]
      rcases k z hz with h | h <;> simp [h]
    · obtain ⟨g, e, k⟩ := c2.now x h
      refine ⟨g, e, fun z hz => ?_⟩
      rw [hn, hp]
      rcases k z hz with h | h <;> simp [h]
  · intro q hq
    rcases (hp q).1 hq with h | h
    · exact c1.push q h
    · exact c2.push q h
  · intro f h
    rcases (hf f).1 h with h | h
    · exact c1.fn f h
    · exact c2.fn f h

theorem strMark_ok {c : Cls} (hc : c = .str ∨ c = .chunk) {s : Option Addr} (ok : OkM H G (opt c s)) :
    ∃ d, strMark H s = .ok d ∧ Cov H G (opt c s) ⟨d, [], none⟩ := by
  cases s with
  | none => exact ⟨[], rfl, Cov.nil⟩
  | some s =>
    obtain ⟨g, o, h, i⟩ := ok (s, c) (by simp [opt])
    refine ⟨[s], by simp [strMark, h], ?_⟩
    refine ⟨by simp [opt], ?_, by simp, by simp⟩
    intro x hx
    rw [List.mem_singleton] at hx
    subst hx
    refine ⟨g, ?_, ?_⟩
    · intro o' h'
      rw [h] at h'
      cases h'
      intro i'
      simp only at i
      rcases hc with rfl | rfl <;> cases o <;> simp [Is] at i i'
    · rintro z ⟨o', h', c', m⟩
      simp only at h i
      rw [h] at h'
      cases h'
      rcases hc with rfl | rfl <;> cases o <;> simp [Is, Obj.members] at i m

theorem locMark_ok (r : Region H G) {l : Option Addr} (ok : OkM H G (opt .loc l)) :
    ∃ d, locMark H l = .ok d ∧ Cov H G (opt .loc l) ⟨d, [], none⟩ := by
  cases l with
  | none => exact ⟨[], rfl, Cov.nil⟩
  | some l =>
    obtain ⟨g, o, h, i⟩ := ok (l, .loc) (by simp [opt])
    simp only at h i g
    cases o with
    | locv f =>
      obtain ⟨d, hd, cd⟩ := strMark_ok (c := .str) (.inl rfl) (r.okM g h)
      refine ⟨l :: d, by simp [locMark, h, hd], ?_⟩
      refine ⟨by simp [opt], ?_, by simp, by simp⟩
      intro x hx
      rcases List.mem_cons.1 hx with hx | hx
      · subst hx
        refine ⟨g, ?_, ?_⟩
        · intro o' h'
          rw [h] at h'
          cases h'
          simp [Is]
        · rintro z ⟨o', h', c', m⟩
          rw [h] at h'
          cases h'
          rcases cd.cover _ m with m | m | m
          · exact .inl (List.mem_cons_of_mem _ m)
          · simp at m
          · simp at m
      · obtain ⟨g', e, k⟩ := cd.now x hx
        refine ⟨g', e, fun z hz => ?_⟩
        rcases k z hz with m | m
        · exact .inl (List.mem_cons_of_mem _ m)
        · simp at m
    | _ => simp [Is] at i

theorem mem_ptrs {l : List Ptr} {x : Addr × Cls} : x ∈ ptrs l ↔ .ref x.1 ∈ l ∧ x.2 = .expr := by
  unfold ptrs
  rw [List.mem_flatMap]
  constructor
  · rintro ⟨p, hp, hx⟩
    cases p <;> simp [ptr] at hx
    subst hx
    exact ⟨hp, rfl⟩
  · rintro ⟨h, e⟩
    refine ⟨_, h, ?_⟩
    simp [ptr, ← e]

theorem ptrs_single (p : Ptr) : ptrs [p] = ptr p := by simp [ptrs]

theorem mem_nn {l : List Ptr} {q : Ptr} : q ∈ nn l ↔ q ∈ l ∧ q ≠ .null := by simp [nn]

theorem nn_ok {l : List Ptr} (ok : OkM H G (ptrs l)) : Cov H G (ptrs l) ⟨[], nn l, none⟩ := by
  refine ⟨?_, by simp, ?_, by simp⟩
  · intro x hx
    refine .inr (.inl ?_)
    rw [mem_nn]
    exact ⟨(mem_ptrs.1 hx).1, by simp⟩
  · intro q hq
    rw [mem_nn] at hq
    refine ⟨hq.2, ?_⟩
    rintro a rfl
    exact ok (a, .expr) (mem_ptrs.2 ⟨hq.1, rfl⟩)

theorem vecMark_ok (r : Region H G) {v : Option Addr} (ok : OkM H G (opt .vec v)) :
    ∃ d p, vecMark H v = .ok (d, p) ∧ Cov H G (opt .vec v) ⟨d, p, none⟩ := by
  cases v with
  | none => exact ⟨[], [], rfl, Cov.nil⟩
  | some v =>
    obtain ⟨g, o, h, i⟩ := ok (v, .vec) (by simp [opt])
    simp only at h i g
    cases o with
    | vec es =>
      have ce := nn_ok (r.okM g h)
      refine ⟨[v], nn es, by simp [vecMark, h], ?_⟩
      refine ⟨by simp [opt], ?_, ce.push, by simp⟩
      intro x hx
      rw [List.mem_singleton] at hx
      subst hx
      refine ⟨g, ?_, ?_⟩
      · intro o' h'
        rw [h] at h'
        cases h'
        simp [Is]
      · rintro z ⟨o', h', c', m⟩
        rw [h] at h'
        cases h'
        rcases ce.cover _ m with m | m | m
        · simp at m
        · exact .inr m
        · simp at m
    | _ => simp [Is] at i

theorem callName_ok (r : Region H G) {f : Addr} (ok : OkM H G [(f, .fn)]) :
    ∃ s d, callName H (.decl f) = .ok s ∧ strMark H s = .ok d ∧ Cov H G [(f, .fn)] ⟨d, [], some f⟩ := by
  obtain ⟨g, o, h, i⟩ := ok (f, .fn) (by simp)
  simp only at h i g
  cases o with
  | item loc it =>
    cases it with
    | functionI id ti ps ann e =>
      have ho := r.okM g h
      have : OkM H G (opt .str id) := by
        intro x hx
        exact ho x (by simp [Obj.members, Itm.members, hx])
      obtain ⟨d, hd, cd⟩ := strMark_ok (c := .str) (.inl rfl) this
      refine ⟨id, d, by simp [callName, h], hd, ?_⟩
      exact ⟨by simp, cd.now, by simp, by rintro f' hf; cases hf; exact ⟨g, _, h, i⟩⟩
    | _ => simp [Is] at i
  | _ => simp [Is] at i

theorem scanE_ok (r : Region H G) {e : Expr} (ok : OkM H G e.members) :
    ∃ st, scanE H e = .ok st ∧ Cov H G e.members st := by
  have vecCase : ∀ v, OkM H G (opt .vec v) → ∃ st,
      (do let (d, p) ← vecMark H v; (.ok ⟨d, p, none⟩ : Res Step)) = .ok st ∧ Cov H G (opt .vec v) st := by
    intro v hv
    obtain ⟨d, p, hd, c⟩ := vecMark_ok r hv
    exact ⟨_, by rw [hd]; rfl, c⟩
  have chunkCase : ∀ s, OkM H G [(s, .chunk)] → ∃ st,
      (do let d ← chunkMark H (some s); (.ok ⟨d, [], none⟩ : Res Step)) = .ok st ∧ Cov H G [(s, .chunk)] st := by
    intro s hs
    obtain ⟨d, hd, c⟩ := strMark_ok (c := .chunk) (.inr rfl) (s := some s) hs
    exact ⟨_, by rw [chunkMark, hd]; rfl, c⟩
  have vecPtr : ∀ v (l : List Ptr), OkM H G (opt .vec v) → OkM H G (ptrs l) → ∃ st,
      (do let (d, p) ← vecMark H v; (.ok ⟨d, nn l ++ p, none⟩ : Res Step)) = .ok st ∧
        ∀ ms, (∀ x ∈ ms, x ∈ opt .vec v ∨ x ∈ ptrs l) → Cov H G ms st := by
    intro v l hv hl
    obtain ⟨d, p, hd, c⟩ := vecMark_ok r hv
    refine ⟨_, by rw [hd]; rfl, ?_⟩
    intro ms hms
    exact Cov.add c (nn_ok hl) hms (by simp) (by intro x; simp only [List.mem_append]; exact or_comm) (by simp)
  cases e with
  | lit => exact ⟨_, rfl, Cov.nil⟩
  | setLit k v u =>
    cases k with
    | other => exact vecCase v (by simpa [Expr.members] using ok)
    | int =>
      cases u with
      | none => exact vecCase v (by simpa [Expr.members] using ok)
      | some s => exact chunkCase s (by simpa [Expr.members] using ok)
    | float =>
      cases u with
      | none => exact vecCase v (by simpa [Expr.members] using ok)
      | some s => exact chunkCase s (by simpa [Expr.members] using ok)
  | stringLit v =>
    obtain ⟨d, hd, c⟩ := strMark_ok (c := .str) (.inl rfl) ok
    exact ⟨_, by rw [scanE, hd]; rfl, c⟩
  | tiid v =>
    obtain ⟨d, hd, c⟩ := strMark_ok (c := .str) (.inl rfl) ok
    exact ⟨_, by rw [scanE, hd]; rfl, c⟩
  | id s p =>
    rw [Expr.members, OkM.append, ← ptrs_single] at ok
    obtain ⟨d, hd, c⟩ := strMark_ok (c := .str) (.inl rfl) ok.1
    refine ⟨_, by rw [scanE, hd]; rfl, ?_⟩
    refine Cov.add c (nn_ok ok.2) ?_ (by simp) (by simp) (by simp)
    intro x hx
    rwa [Expr.members, ← ptrs_single, List.mem_append] at hx
  | arrayLit u dims =>
    cases u with
    | vec v =>
      rw [Expr.members, OkM.append] at ok
      obtain ⟨d, p, hd, c⟩ := vecMark_ok r ok.1
      obtain ⟨d', hd', c'⟩ := strMark_ok (c := .chunk) (.inr rfl) ok.2
      refine ⟨_, by rw [scanE]; simp only [hd, chunkMark, hd', Res.ok_bind]; rfl, ?_⟩
      refine Cov.add c c' ?_ (by simp) (by simp) (by simp)
      intro x hx
      rwa [Expr.members, List.mem_append] at hx
    | slice al =>
      rw [Expr.members, OkM.cons] at ok
      obtain ⟨d', hd', c'⟩ := strMark_ok (c := .chunk) (.inr rfl) ok.2
      refine ⟨_, by rw [scanE]; simp only [chunkMark, hd', Res.ok_bind]; rfl, ?_⟩
      have c : Cov H G (ptrs [.ref al]) ⟨[], nn [.ref al], none⟩ := nn_ok (by simpa [ptrs, ptr] using ok.1)
      refine Cov.add c c' ?_ (by simp) (by simp [mem_nn]) (by simp)
      intro x hx
      simpa [Expr.members, ptrs, ptr] using hx
  | arrayAccess v idx =>
    rw [Expr.members, OkM.append, ← ptrs_single] at ok
    obtain ⟨st, h, c⟩ := vecPtr idx [v] ok.2 ok.1
    refine ⟨st, h, c _ ?_⟩
    intro x hx
    rw [Expr.members, ← ptrs_single, List.mem_append] at hx
    exact hx.symm
  | fieldAccess v f =>
    have : Expr.members (.fieldAccess v f) = ptrs [v, f] := by simp [Expr.members, ptrs]
    rw [this] at ok ⊢
    exact ⟨_, rfl, nn_ok ok⟩
  | comp e g gi =>
    rw [Expr.members, OkM.append, OkM.append, ← ptrs_single] at ok
    obtain ⟨⟨oke, okg⟩, oki⟩ := ok
    obtain ⟨d, p, hd, c⟩ := vecMark_ok r okg
    obtain ⟨d', hd', c'⟩ := strMark_ok (c := .chunk) (.inr rfl) oki
    refine ⟨_, by rw [scanE]; simp only [hd, chunkMark, hd', Res.ok_bind]; rfl, ?_⟩
    refine Cov.add (m1 := opt .vec g ++ opt .chunk gi) (s1 := ⟨d ++ d', p, none⟩) (Cov.add c c' ?_ ?_ ?_ ?_) (nn_ok oke) ?_ (by simp) ?_ (by simp)
    · intro x hx; rwa [List.mem_append] at hx
    · simp
    · simp
    · simp
    · intro x hx
      rw [Expr.members, ← ptrs_single] at hx
      simp only [List.mem_append] at hx ⊢
      tauto
    · intro x; simp only [List.mem_append]; exact or_comm
  | ite it els =>
    rw [Expr.members, OkM.append, ← ptrs_single] at ok
    obtain ⟨st, h, c⟩ := vecPtr it [els] ok.1 ok.2
    refine ⟨st, h, c _ ?_⟩
    intro x hx
    rwa [Expr.members, ← ptrs_single, List.mem_append] at hx
  | binOp e0 e1 d =>
    have : Expr.members (.binOp e0 e1 d) = ptrs [e0, e1] := by simp [Expr.members, ptrs]
    rw [this] at ok ⊢
    exact ⟨_, rfl, nn_ok ok⟩
  | unOp e0 d =>
    have : Expr.members (.unOp e0 d) = ptrs [e0] := by simp [Expr.members, ptrs]
    rw [this] at ok ⊢
    exact ⟨_, rfl, nn_ok ok⟩
  | call id args =>
    obtain ⟨ms, s, d, hs, hd, c, hms⟩ : ∃ ms s d, callName H id = .ok s ∧ strMark H s = .ok d ∧
        Cov H G ms ⟨d, [], callDecl id⟩ ∧
        ∀ x ∈ Expr.members (.call id args), x ∈ ms ∨ x ∈ Expr.members (.call (.name none) args) := by
      cases id with
      | name s =>
        have : OkM H G (opt .str s) := by
          cases args <;> rw [Expr.members, OkM.append] at ok <;> exact ok.1
        obtain ⟨d, hd, c⟩ := strMark_ok (c := .str) (.inl rfl) this
        refine ⟨_, s, d, rfl, hd, c, ?_⟩
        intro x hx
        cases args <;> rw [Expr.members, List.mem_append] at hx <;> simpa [Expr.members, opt] using hx
      | decl f =>
        have : OkM H G [(f, .fn)] := by
          cases args <;> rw [Expr.members, OkM.cons] at ok <;> exact ok.1
        obtain ⟨s, d, hs, hd, c⟩ := callName_ok r this
        refine ⟨_, s, d, hs, hd, c, ?_⟩
        intro x hx
        cases args <;> rw [Expr.members] at hx <;> simpa [Expr.members, opt] using hx
    have oka : OkM H G (Expr.members (.call (.name none) args)) := by
      intro x hx
      refine ok x ?_
      cases id <;> cases args <;> simp [Expr.members, opt] at hx ⊢ <;> simp [hx]
    obtain ⟨d', p, hp, c'⟩ : ∃ d' p, argsMark H args = .ok (d', p) ∧
        Cov H G (Expr.members (.call (.name none) args)) ⟨d', p, none⟩ := by
      cases args with
      | inl l =>
        simp only [Expr.members, opt, List.nil_append] at oka ⊢
        exact ⟨_, _, rfl, nn_ok oka⟩
      | nary v =>
        simp only [Expr.members, opt, List.nil_append] at oka ⊢
        obtain ⟨d', p, h, c⟩ := vecMark_ok r (v := some v) oka
        exact ⟨d', p, h, c⟩
    refine ⟨_, by rw [scanE]; simp only [hs, hd, hp, Res.ok_bind]; rfl, ?_⟩
    exact Cov.add c c' hms (by simp) (by simp) (by simp)
  | varDecl ti i e fl =>
    have : Expr.members (.varDecl ti i e fl) = ptrs [ti, i, e] := by simp [Expr.members, ptrs]
    rw [this] at ok ⊢
    refine ⟨_, rfl, ?_⟩
    refine Cov.add (nn_ok ok) Cov.nil (by intro x hx; exact .inl hx) (by simp) ?_ (by simp)
    intro x
    simp only [mem_nn, List.mem_cons, List.not_mem_nil, or_false]
    tauto
  | letE ds orig body =>
    rw [Expr.members, OkM.append, OkM.append, ← ptrs_single] at ok
    obtain ⟨⟨ok1, ok2⟩, ok3⟩ := ok
    obtain ⟨d, p, hd, c⟩ := vecMark_ok r ok1
    obtain ⟨d', p', hd', c'⟩ := vecMark_ok r ok2
    refine ⟨_, by rw [scanE]; simp only [hd, hd', Res.ok_bind]; rfl, ?_⟩
    refine Cov.add (m1 := opt .vec ds ++ opt .vec orig) (s1 := ⟨d ++ d', p ++ p', none⟩) (Cov.add c c' ?_ ?_ ?_ ?_) (nn_ok ok3) ?_ (by simp) ?_ (by simp)
    · intro x hx; rwa [List.mem_append] at hx
    · simp
    · simp
    · simp
    · intro x hx
      rwa [Expr.members, ← ptrs_single, List.mem_append] at hx
    · intro x; rw [List.mem_append]
  | typeInst rs dom =>
    rw [Expr.members, OkM.append, ← ptrs_single] at ok
    obtain ⟨st, h, c⟩ := vecPtr rs [dom] ok.1 ok.2
    refine ⟨st, h, c _ ?_⟩
    intro x hx
    rwa [Expr.members, ← ptrs_single, List.mem_append] at hx

theorem scan_ok (r : Region H G) {h : Hdr} {e : Expr} (ok : OkM H G (Obj.expr h e).members) :
    ∃ st, scan H h e = .ok st ∧ Cov H G (Obj.expr h e).members st := by
  rw [Obj.members, OkM.append, OkM.append] at ok
  obtain ⟨⟨ok1, ok2⟩, ok3⟩ := ok
  obtain ⟨d, hd, c1⟩ := locMark_ok r ok1
  obtain ⟨st, hs, c3⟩ := scanE_ok r ok3
  refine ⟨_, by rw [scan]; simp only [hd, hs, Res.ok_bind]; rfl, ?_⟩
  refine Cov.add (m1 := opt .loc h.loc ++ ptrs h.ann) (s1 := ⟨d, nn h.ann, none⟩) (Cov.add c1 (nn_ok ok2) ?_ ?_ ?_ ?_) c3 ?_ (by simp) (by simp) (by simp)
  · intro x hx; rwa [List.mem_append] at hx
  · simp
  · simp
  · simp
  · intro x hx
    rwa [Obj.members, List.mem_append] at hx

/-- Marks on the spot and expressions of an item. Null pointers may remain in the list. -/
theorem scanI_ok (r : Region H G) {loc : Option Addr} {i : Itm} (ok : OkM H G (Obj.item loc i).members) :
    ∃ d p, scanI H loc i = .ok (d, p) ∧ Cov H G (Obj.item loc i).members ⟨d, nn p, none⟩ := by
  rw [Obj.members, OkM.append] at ok
  obtain ⟨ok1, ok3⟩ := ok
  obtain ⟨d, hd, c1⟩ := locMark_ok r ok1
  have fin : ∀ (ms : List (Addr × Cls)) d' p, Cov H G ms ⟨d', nn p, none⟩ → ms = i.members →
      Cov H G (Obj.item loc i).members ⟨d ++ d', nn p, none⟩ := by
    rintro ms d' p c rfl
    refine Cov.add c1 c ?_ (by simp) (by simp) (by simp)
    intro x hx
    rwa [Obj.members, List.mem_append] at hx
  have nnapp : ∀ l l' : List Ptr, nn (l ++ l') = nn l ++ nn l' := by intro l l'; simp [nn]
  cases i with
  | includeI f =>
    obtain ⟨d', hd', c⟩ := strMark_ok (c := .str) (.inl rfl) ok3
    exact ⟨d ++ d', [], by rw [scanI]; simp only [hd, hd', Res.ok_bind], fin _ _ [] c rfl⟩
  | assignI id e decl =>
    rw [Itm.members, List.append_assoc, OkM.append] at ok3
    have h2 : ptr e ++ ptr decl = ptrs [e, decl] := by simp [ptrs]
    rw [h2] at ok3
    obtain ⟨d', hd', c⟩ := strMark_ok (c := .str) (.inl rfl) ok3.1
    refine ⟨d ++ d', [e, decl], by rw [scanI]; simp only [hd, hd', Res.ok_bind], fin _ d' [e, decl] (Cov.add c (nn_ok ok3.2) ?_ (by simp) (by simp) (by simp)) rfl⟩
    intro x hx
    rwa [Itm.members, List.append_assoc, h2, List.mem_append] at hx
  | constraintI e =>
    rw [Itm.members, ← ptrs_single] at ok3
    refine ⟨d, [e], by rw [scanI]; simp only [hd, Res.ok_bind], ?_⟩
    have := fin _ [] [e] (nn_ok ok3) (by rw [Itm.members, ptrs_single])
    rwa [List.append_nil] at this
  | solveI ann e =>
    have h2 : ptrs ann ++ ptr e = ptrs (ann ++ [e]) := by simp [ptrs]
    rw [Itm.members, h2] at ok3
    refine ⟨d, ann ++ [e], by rw [scanI]; simp only [hd, Res.ok_bind], ?_⟩
    have := fin _ [] _ (nn_ok ok3) (by rw [Itm.members, h2])
    rwa [List.append_nil] at this
  | outputI e ann =>
    have h2 : ptr e ++ ptrs ann = ptrs (e :: ann) := by simp [ptrs]
    rw [Itm.members, h2] at ok3
    refine ⟨d, e :: ann, by rw [scanI]; simp only [hd, Res.ok_bind], ?_⟩
    have := fin _ [] _ (nn_ok ok3) (by rw [Itm.members, h2])
    rwa [List.append_nil] at this
  | functionI id ti ps ann e =>
    simp only [Itm.members, OkM.append] at ok3
    obtain ⟨⟨⟨⟨o1, o2⟩, o3⟩, o4⟩, o5⟩ := ok3
    have o6 : OkM H G (ptrs (ti :: ann ++ [e])) := by
      intro x hx
      have : x ∈ ptr ti ∨ x ∈ ptrs ann ∨ x ∈ ptr e := by
        simpa [ptrs] using hx
      rcases this with h | h | h
      · exact o2 x h
      · exact o4 x h
      · exact o5 x h
    obtain ⟨d1, hd1, k1⟩ := strMark_ok (c := .str) (.inl rfl) o1
    obtain ⟨d2, p2, hd2, k2⟩ := vecMark_ok r o3
    have k6 := nn_ok o6
    have e2 : nn p2 = p2 := by
      unfold nn
      rw [List.filter_eq_self]
      intro q hq
      simpa using (k2.push q hq).1
    refine ⟨d ++ d1 ++ d2, ti :: ann ++ [e] ++ p2, by rw [scanI]; simp only [hd, hd1, hd2, Res.ok_bind], ?_⟩
    rw [List.append_assoc]
    refine fin _ (d1 ++ d2) _ (Cov.add (m1 := opt .str id ++ opt .vec ps) (s1 := ⟨d1 ++ d2, p2, none⟩) (Cov.add k1 k2 ?_ ?_ ?_ ?_) k6 ?_ (by simp) ?_ (by simp)) rfl
    · intro x hx; rwa [List.mem_append] at hx
    · simp
    · simp
    · simp
    · intro x hx
      simp only [Itm.members, List.mem_append] at hx
      have : x ∈ ptrs (ti :: ann ++ [e]) ↔ x ∈ ptr ti ∨ x ∈ ptrs ann ∨ x ∈ ptr e := by simp [ptrs]
      rw [this, List.mem_append]
      tauto
    · intro x
      rw [nnapp, List.mem_append, e2]
      exact or_comm

end
end GCMark
end MZ
