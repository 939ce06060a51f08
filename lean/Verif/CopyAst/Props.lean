import Verif.CopyAst.Inv

/-!
# Copying models: the properties
-/

namespace MZ
namespace CopyAst

theorem Inv.start {h : Heap} (hw : h.Wf) : Inv h ⟨h, fun _ => none⟩ (fun _ => False) := by
  refine ⟨le_refl _, ?_, fun _ _ => rfl, ?_, ?_, ?_, ?_, ?_, ?_⟩
  · intro x hx
    by_contra hc
    have := (hw.dom x).1 hc
    simp only at hx
    omega
  all_goals intros; simp_all

theorem Rels.getElem? {h : Heap} {m} {cs r : List (Option Nat)} (hr : Rels h m cs r) (k : Nat) :
    (cs[k]? = none ∧ r[k]? = none) ∨ (cs[k]? = some none ∧ r[k]? = some none) ∨
      ∃ c q, cs[k]? = some (some c) ∧ r[k]? = some (some q) ∧ Rel h m c q := by
  induction hr generalizing k with
  | nil => left; simp
  | @cons a b cs r hab _ ih =>
    cases k with
    | zero =>
      cases hab with
      | none => right; left; simp
      | some hab => right; right; exact ⟨_, _, rfl, rfl, hab⟩
    | succ k => simpa using ih k

theorem Rels.append {h : Heap} {m} {a b c d : List (Option Nat)} (h1 : Rels h m a b) (h2 : Rels h m c d) : Rels h m (a ++ c) (b ++ d) := by
  induction h1 with
  | nil => exact h2
  | cons hab _ ih => exact List.Forall₂.cons hab ih

/-- Related objects are the same and have related references. -/
theorem Inv.related {h : Heap} (hw : h.Wf) {st : St} (hi : Inv h st (fun _ => False)) {p q : Nat} (hr : Rel h st.map p q) :
    ∃ n n', h.obj p = some n ∧ st.heap.obj q = some n' ∧ n.Same n' ∧ (h.next ≤ q ∨ (p = q ∧ ∃ l, n = .const l)) ∧
      Rels h st.map n.refs n'.refs := by
  obtain ⟨hpn, hr⟩ := hr
  obtain ⟨n, hn⟩ := Option.ne_none_iff_exists'.1 ((hw.dom p).2 hpn)
  rcases hr with hm | ⟨⟨l, hl⟩, rfl⟩
  · have hq := (hi.dom p q hpn hm).1
    cases n with
    | const l => rw [hi.constNo p l hn] at hm; cases hm
    | node l bs as =>
      obtain ⟨bs', as', k1, k2, k3⟩ := hi.nodeOk _ _ _ _ _ hn hm
      exact ⟨_, _, hn, k1, ⟨rfl, k2.length_eq, (k3 id).length_eq⟩, Or.inl hq, k2.append (k3 id)⟩
    | ident d =>
      obtain ⟨dq, l, as', k1, k2, k3⟩ := hi.idOk _ _ _ hn hm
      have hd : d < h.next := hw.refs p _ d hn (by simp [Node.refs])
      exact ⟨_, _, hn, k3, trivial, Or.inl hq, List.Forall₂.cons (Option.Rel.some ⟨hd, Or.inl k1⟩) List.Forall₂.nil⟩
    | decl l i as =>
      obtain ⟨i', as', k1, -, -, k4⟩ := hi.declOk _ _ _ _ _ hn hm
      exact ⟨_, _, hn, k1, ⟨rfl, (k4 id).length_eq⟩, Or.inl hq, k4 id⟩
  · exact ⟨.const l, .const l, hl, by rw [hi.old q hpn]; exact hl, rfl, Or.inr ⟨rfl, l, rfl⟩, List.Forall₂.nil⟩

theorem Inv.follow {h : Heap} (hw : h.Wf) {st : St} (hi : Inv h st (fun _ => False)) (path : List Nat) :
    ∀ {p q : Nat}, Rel h st.map p q → (follow h p path = none ∧ CopyAst.follow st.heap q path = none) ∨
      ∃ x y, CopyAst.follow h p path = some x ∧ CopyAst.follow st.heap q path = some y ∧ Rel h st.map x y := by
  induction path with
  | nil => intro p q hr; exact Or.inr ⟨p, q, rfl, rfl, hr⟩
  | cons k path ih =>
    intro p q hr
    obtain ⟨n, n', h1, h2, -, -, h3⟩ := hi.related hw hr
    simp only [CopyAst.follow, h1, h2]
    rcases h3.getElem? k with ⟨a, b⟩ | ⟨a, b⟩ | ⟨c, d, a, b, e⟩
    · left; simp [a, b]
    · left; simp [a, b]
    · simp only [a, b]
      exact ih e

theorem Inv.sharing {h : Heap} {st : St} (hi : Inv h st (fun _ => False)) {x1 y1 x2 y2 : Nat} (r1 : Rel h st.map x1 y1)
    (r2 : Rel h st.map x2 y2) :
    (x1 = x2 → y1 = y2) ∧ (y1 = y2 → x1 = x2 ∨ ∃ d, h.obj x1 = some (.ident d) ∧ h.obj x2 = some (.ident d)) := by
  obtain ⟨n1, r1⟩ := r1
  obtain ⟨n2, r2⟩ := r2
  constructor
  · rintro rfl
    rcases r1 with r1 | ⟨⟨l, r1⟩, rfl⟩ <;> rcases r2 with r2 | ⟨⟨l', r2⟩, rfl⟩
    · rw [r1] at r2; exact Option.some.inj r2
    · rw [hi.constNo _ _ r2] at r1; cases r1
    · rw [hi.constNo _ _ r1] at r2; cases r2
    · rfl
  · rintro rfl
    rcases r1 with r1 | ⟨⟨l, r1⟩, e1⟩ <;> rcases r2 with r2 | ⟨⟨l', r2⟩, e2⟩
    · exact hi.inj _ _ _ n1 n2 r1 r2
    · have := (hi.dom _ _ n1 r1).1
      omega
    · have := (hi.dom _ _ n2 r2).1
      omega
    · left; omega

/-- **C93**: copying the items of a model ends, changes none of the objects there were, and gives for each item a copy from which the same paths
lead to the same objects; except for the constants all of these are new.  Objects that are shared, also between items, are shared in
the copy, and no two objects become one except the identifiers of one declaration.  The identifier of a copied declaration refers to the copy.
Partial: what copying leaves out (see the model) and the condition `NoReturn`. -/
theorem _root_.MZ.C93_copy_partial (h : Heap) (hw : h.Wf) (roots : List (Option Nat)) (hr : ∀ p, some p ∈ roots → p < h.next)
    (hn : NoReturn h roots) :
    ∃ N, ∀ fuel, N ≤ fuel → ∃ st qs, copyModel fuel h roots = some (st, qs) ∧ qs.length = roots.length ∧
      (∀ k : Nat, roots[k]? = some none ↔ qs[k]? = some none) ∧
      (∀ x, x < h.next → st.heap.obj x = h.obj x) ∧
      (∀ k p q : Nat, roots[k]? = some (some p) → qs[k]? = some (some q) → SamePaths h st.heap p q ∧
        ∀ path y l i as, follow st.heap q path = some y → st.heap.obj y = some (.decl l i as) → st.heap.obj i = some (.ident y)) ∧
      (∀ k1 k2 p1 q1 p2 q2 : Nat, roots[k1]? = some (some p1) → qs[k1]? = some (some q1) → roots[k2]? = some (some p2) →
        qs[k2]? = some (some q2) → SameSharing h st.heap p1 q1 p2 q2) := by
  refine ⟨h.next * (2 * h.next + 2) + 2 * h.next + 2, fun fuel hf => ?_⟩
  obtain ⟨st, qs, c1, hi, -, c4, -⟩ := copyList_good hw (fuel := fuel) (fun st opn p => copyE_good hw hn fuel st opn p) roots ⟨h, fun _ => none⟩
    (Inv.start hw) (fun c hc => by
      refine ⟨hr c hc, ⟨c, [], hc, rfl, fun k _ _ _ hk => absurd hk (by simp)⟩, ?_⟩
      have h1 := rank_le h ⟨h, fun _ => none⟩ c
      have h2 : unm h ⟨h, fun _ => none⟩ ≤ h.next := by
        classical
        unfold unm
        exact le_trans (Finset.card_filter_le _ _) (by simp)
      have := Nat.mul_le_mul_right (2 * h.next + 2) h2
      unfold mu
      omega)
  have hrel : ∀ k p q : Nat, roots[k]? = some (some p) → qs[k]? = some (some q) → Rel h st.map p q := by
    intro k p q hp hq
    rcases c4.getElem? k with ⟨a, b⟩ | ⟨a, b⟩ | ⟨c, d, a, b, e⟩
    · rw [hp] at a; cases a
    · rw [hp] at a; cases a
    · rw [hp] at a; rw [hq] at b
      cases a; cases b
      exact e
  refine ⟨st, qs, c1, c4.length_eq.symm, ?_, hi.old, ?_, ?_⟩
  · intro k
    rcases c4.getElem? k with ⟨a, b⟩ | ⟨a, b⟩ | ⟨c, d, a, b, e⟩ <;> simp [a, b]
  · intro k p q hp hq
    have hpq := hrel k p q hp hq
    constructor
    · intro path
      rcases hi.follow hw path hpq with hh | ⟨x, y, a, b, hxy⟩
      · exact Or.inl hh
      · obtain ⟨n, n', k1, k2, k3, k4, -⟩ := hi.related hw hxy
        exact Or.inr ⟨x, y, n, n', a, b, k1, k2, k3, k4⟩
    · intro path y l i as hy ho
      rcases hi.follow hw path hpq with ⟨-, hh⟩ | ⟨x, y', a, b, hxy⟩
      · rw [hh] at hy; cases hy
      · rw [b] at hy
        cases hy
        obtain ⟨n, n', k1, k2, k3, k4, -⟩ := hi.related hw hxy
        rw [ho] at k2
        cases k2
        cases n with
        | decl l' i' as' =>
          rcases hxy.2 with hm | ⟨⟨l0, hl⟩, -⟩
          · obtain ⟨i2, as2, g1, g2, -⟩ := hi.declOk _ _ _ _ _ k1 hm
            rw [ho] at g1
            cases g1
            exact g2
          · rw [k1] at hl; cases hl
        | _ => exact absurd k3 (by simp [Node.Same])
  · intro k1 k2 p1 q1 p2 q2 a1 b1 a2 b2 path1 path2 x1 y1 x2 y2 f1 g1 f2 g2
    have r1 : Rel h st.map x1 y1 := by
      rcases hi.follow hw path1 (hrel _ _ _ a1 b1) with ⟨hh, -⟩ | ⟨x, y, a, b, hxy⟩
      · rw [hh] at f1; cases f1
      · rw [a] at f1; rw [b] at g1
        cases f1; cases g1
        exact hxy
    have r2 : Rel h st.map x2 y2 := by
      rcases hi.follow hw path2 (hrel _ _ _ a2 b2) with ⟨hh, -⟩ | ⟨x, y, a, b, hxy⟩
      · rw [hh] at f2; cases f2
      · rw [a] at f2; rw [b] at g2
        cases f2; cases g2
        exact hxy
    exact hi.sharing r1 r2

/-- `bool: n = if n then true else true endif; constraint f(n)` with a declaration that refers to itself and a recursive function: object 0
is the declaration, 1 its identifier, 2 the conditional, 3 another identifier of the declaration, 4 the literal `true`, 5 the constraint, 6 the
call, 7 the function and 8 a call of the function in its own body. -/
def exHeap : Heap where
  next := 9
  obj x := match x with
    | 0 => some (.decl "bool n" 1 [none, some 2])
    | 1 => some (.ident 0)
    | 2 => some (.node "if" [] [some 3, some 4, some 4])
    | 3 => some (.ident 0)
    | 4 => some (.const "true")
    | 5 => some (.node "constraint" [] [some 6])
    | 6 => some (.node "f(…)" [some 7] [some 1])
    | 7 => some (.node "function f" [] [some 8])
    | 8 => some (.node "f(…)" [some 7] [some 4])
    | _ => none

theorem exHeap_never (path : List Nat) : ∀ p, p = 4 ∨ p = 7 ∨ p = 8 → follow exHeap p path ≠ some 6 := by
  induction path with
  | nil =>
    intro p hp
    simp only [follow, ne_eq, Option.some.injEq]
    omega
  | cons k path ih =>
    rintro p (rfl | rfl | rfl)
    · simp [follow, exHeap, Node.refs]
    · rcases k with _ | k
      · exact ih 8 (by simp)
      · simp [follow, exHeap, Node.refs]
    · rcases k with _ | _ | k
      · exact ih 7 (by simp)
      · exact ih 4 (by simp)
      · simp [follow, exHeap, Node.refs]

theorem exHeap_through (path : List Nat) : ∀ p, p ≠ 8 → follow exHeap p path = some 8 → ∃ k, follow exHeap p (path.take k) = some 7 := by
  induction path with
  | nil =>
    intro p hp hf
    simp only [follow, Option.some.injEq] at hf
    exact absurd hf hp
  | cons k path ih =>
    intro p hp hf
    by_cases h7 : p = 7
    · exact ⟨0, by rw [h7]; rfl⟩
    cases ho : exHeap.obj p with
    | none => simp [follow, ho] at hf
    | some n =>
      rcases hk : n.refs[k]? with _ | _ | c
      · simp [follow, ho, hk] at hf
      · simp [follow, ho, hk] at hf
      · simp only [follow, ho, hk] at hf
        have hc : c ≠ 8 := by
          rintro rfl
          have hmem := List.mem_of_getElem? hk
          rcases p with _ | _ | _ | _ | _ | _ | _ | _ | _ | p <;> simp [exHeap] at ho h7 hp <;> subst ho <;> simp [Node.refs] at hmem
        obtain ⟨j, hj⟩ := ih c hc hf
        exact ⟨j + 1, by simpa only [List.take_succ_cons, follow, ho, hk] using hj⟩

example : exHeap.Wf ∧ (∀ p, some p ∈ [some 0, none, some 5] → p < exHeap.next) ∧ NoReturn exHeap [some 0, none, some 5] := by
  refine ⟨⟨?_, ?_, ?_⟩, by simp [exHeap], ?_⟩
  · intro p
    rcases p with _ | _ | _ | _ | _ | _ | _ | _ | _ | p <;> simp [exHeap]
  · intro p n c hp hc
    rcases p with _ | _ | _ | _ | _ | _ | _ | _ | _ | p <;> simp [exHeap] at hp <;> subst hp <;> simp [Node.refs] at hc <;> simp [exHeap] <;> omega
  · intro p d hp
    rcases p with _ | _ | _ | _ | _ | _ | _ | _ | _ | p <;> simp [exHeap] at hp <;> subst hp <;> exact ⟨_, _, _, rfl⟩
  · intro p l bs as c hp hc
    rcases p with _ | _ | _ | _ | _ | _ | _ | _ | _ | p <;> simp [exHeap] at hp <;> obtain ⟨-, rfl, -⟩ := hp <;> simp at hc
    · subst hc
      exact Or.inl fun path => exHeap_never path 7 (by simp)
    · subst hc
      refine Or.inr ⟨7, _, _, rfl, ?_, fun path => exHeap_through path 7 (by simp)⟩
      intro root path hr
      exact exHeap_through path root (by rintro rfl; simp at hr)

example : (copyModel 20 exHeap [some 0, none, some 5]).map (fun r => (r.2, (List.range 18).map r.1.heap.obj)) =
    some ([some 9, none, some 12], (List.range 9).map exHeap.obj ++ [
      some (.decl "bool n" 10 [none, some 11]), some (.ident 9), some (.node "if" [] [some 10, some 4, some 4]),
      some (.node "constraint" [] [some 15]), some (.node "function f" [] [some 14]), some (.node "f(…)" [some 13] [some 4]),
      some (.node "f(…)" [some 13] [some 10]), none, none]) := by
  decide +kernel

/-- A call (0) in the body of the function (1) that it calls. -/
def recHeap : Heap where
  next := 2
  obj x := match x with
    | 0 => some (.node "f(…)" [some 1] [])
    | 1 => some (.node "function f" [] [some 0])
    | _ => none

/-- **C93**: without the condition `NoReturn`, sharing is lost: copying a call together with
the functions, `lib/copy.cpp:291-340`, gives two calls if the body of the function has that call. -/
theorem _root_.MZ.C93_recursive_call_fails :
    ∃ st q, copyModel 5 recHeap [some 0] = some (st, [some q]) ∧ follow recHeap 0 [0, 0] = some 0 ∧ ¬ SameSharing recHeap st.heap 0 q 0 q := by
  refine ⟨_, _, rfl, rfl, ?_⟩
  intro hs
  have h1 := (hs [] [0, 0] 0 _ 0 _ rfl rfl rfl rfl).1 rfl
  revert h1
  decide +kernel

end CopyAst
end MZ
