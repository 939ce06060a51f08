import Verif.CopyAst.Spec
import Mathlib.Data.Finset.Filter
import Mathlib.Data.Finset.Range
import Mathlib.Data.Finset.Card
import Mathlib.Data.List.Forall2
import Mathlib.Data.Option.Basic

/-!
# Copying: the invariant of the map and the heap
-/

namespace MZ
namespace CopyAst

/-- `q` stands for `p` in the copy. -/
def Rel (h : Heap) (m : Nat → Option Nat) (p q : Nat) : Prop :=
  p < h.next ∧ (m p = some q ∨ (∃ l, h.obj p = some (.const l)) ∧ q = p)

/-- The lists of references `cs` and `r` stand for each other. -/
def Rels (h : Heap) (m : Nat → Option Nat) (cs r : List (Option Nat)) : Prop := List.Forall₂ (Option.Rel (Rel h m)) cs r

/-- The later map has the entries of the earlier one. -/
def MapLe (h : Heap) (m m' : Nat → Option Nat) : Prop := ∀ x y, x < h.next → m x = some y → m' x = some y

theorem Rel.mono {h : Heap} {m m'} (hm : MapLe h m m') {p q} (hr : Rel h m p q) : Rel h m' p q := by
  obtain ⟨h1, h2⟩ := hr
  refine ⟨h1, ?_⟩
  rcases h2 with h2 | h2
  · exact Or.inl (hm _ _ h1 h2)
  · exact Or.inr h2

theorem Rels.mono {h : Heap} {m m'} (hm : MapLe h m m') {p q} (hr : Rels h m p q) : Rels h m' p q := by
  refine List.Forall₂.imp ?_ hr
  intro a b hab
  cases hab with
  | some hab => exact Option.Rel.some (hab.mono hm)
  | none => exact Option.Rel.none

theorem MapLe.trans {h : Heap} {a b c} (h1 : MapLe h a b) (h2 : MapLe h b c) : MapLe h a c :=
  fun x y hx hy => h2 x y hx (h1 x y hx hy)

/-- The invariant; `opn` are the objects whose later references are still to be filled in. -/
structure Inv (h : Heap) (st : St) (opn : Nat → Prop) : Prop where
  le : h.next ≤ st.heap.next
  fin : ∀ x, st.heap.next ≤ x → st.heap.obj x = none
  old : ∀ x, x < h.next → st.heap.obj x = h.obj x
  dom : ∀ p q, p < h.next → st.map p = some q → h.next ≤ q ∧ q < st.heap.next
  inj : ∀ p1 p2 q, p1 < h.next → p2 < h.next → st.map p1 = some q → st.map p2 = some q →
    p1 = p2 ∨ ∃ d, h.obj p1 = some (.ident d) ∧ h.obj p2 = some (.ident d)
  nodeOk : ∀ p q l bs as, h.obj p = some (.node l bs as) → st.map p = some q →
    ∃ bs' as', st.heap.obj q = some (.node l bs' as') ∧ Rels h st.map bs bs' ∧ (¬ opn p → Rels h st.map as as')
  declOk : ∀ p q l i as, h.obj p = some (.decl l i as) → st.map p = some q →
    ∃ i' as', st.heap.obj q = some (.decl l i' as') ∧ st.heap.obj i' = some (.ident q) ∧ h.next ≤ i' ∧ (¬ opn p → Rels h st.map as as')
  idOk : ∀ p q d, h.obj p = some (.ident d) → st.map p = some q →
    ∃ dq l as', st.map d = some dq ∧ st.heap.obj dq = some (.decl l q as') ∧ st.heap.obj q = some (.ident dq)
  constNo : ∀ p l, h.obj p = some (.const l) → st.map p = none

/-- A later state. -/
structure Ext (h : Heap) (st st' : St) : Prop where
  le : st.heap.next ≤ st'.heap.next
  obj : ∀ x, x < st.heap.next → st'.heap.obj x = st.heap.obj x
  map : MapLe h st.map st'.map

theorem Ext.refl (h : Heap) (st : St) : Ext h st st := ⟨le_refl _, fun _ _ => rfl, fun _ _ _ h => h⟩

theorem Ext.trans {h : Heap} {a b c : St} (h1 : Ext h a b) (h2 : Ext h b c) : Ext h a c :=
  ⟨le_trans h1.le h2.le, fun x hx => by rw [h2.obj x (lt_of_lt_of_le hx h1.le), h1.obj x hx], h1.map.trans h2.map⟩

/-- `x` is reached from `p` through objects that are not in the map. -/
inductive Reach (h : Heap) (m : Nat → Option Nat) : Nat → Nat → Prop
  | refl (p) : m p = none → Reach h m p p
  | step (p c x n) : m p = none → h.obj p = some n → some c ∈ n.refs → Reach h m c x → Reach h m p x

theorem Reach.anti {h : Heap} (hw : h.Wf) {m m'} (hm : MapLe h m m') {p x} (hr : Reach h m' p x) : p < h.next → Reach h m p x := by
  have key : ∀ y, y < h.next → m' y = none → m y = none := by
    intro y hy h1
    cases h2 : m y with
    | none => rfl
    | some z => rw [hm y z hy h2] at h1; cases h1
  induction hr with
  | refl p h1 => exact fun hp => .refl p (key p hp h1)
  | step p c x n h1 h2 h3 _ ih => exact fun hp => .step p c x n (key p hp h1) h2 h3 (ih (hw.refs p n c h2 h3))

theorem Reach.path {h : Heap} {m} {p x} (hr : Reach h m p x) :
    ∃ path, follow h p path = some x ∧ ∀ k y, follow h p (path.take k) = some y → m y = none := by
  induction hr with
  | refl p h1 =>
    refine ⟨[], rfl, ?_⟩
    intro k y hy
    simp only [List.take_nil, follow, Option.some.injEq] at hy
    rw [← hy]; exact h1
  | step p c x n h1 h2 h3 _ ih =>
    obtain ⟨path, g1, g2⟩ := ih
    obtain ⟨k, hk, hk'⟩ := List.mem_iff_getElem.1 h3
    refine ⟨k :: path, by simp [follow, h2, List.getElem?_eq_getElem hk, hk', g1], ?_⟩
    intro j y hy
    cases j with
    | zero =>
      simp only [List.take_zero, follow, Option.some.injEq] at hy
      rw [← hy]; exact h1
    | succ j =>
      simp only [List.take_succ_cons, follow, h2, List.getElem?_eq_getElem hk, hk'] at hy
      exact g2 j y hy

/-- A path from a root to `p` whose earlier objects, if they are registered at once, are in the map. -/
def Way (h : Heap) (roots : List (Option Nat)) (m : Nat → Option Nat) (p : Nat) : Prop :=
  ∃ root path, some root ∈ roots ∧ follow h root path = some p ∧
    ∀ k x l as, k < path.length → follow h root (path.take k) = some x → h.obj x = some (.node l [] as) → m x ≠ none

theorem Way.mono {h : Heap} (hw : h.Wf) {roots} {m m'} (hm : MapLe h m m') {p} (w : Way h roots m p) : Way h roots m' p := by
  obtain ⟨root, path, h1, h2, h3⟩ := w
  refine ⟨root, path, h1, h2, ?_⟩
  intro k x l as hk hx ho
  obtain ⟨y, hy⟩ := Option.ne_none_iff_exists'.1 (h3 k x l as hk hx ho)
  rw [hm x y ((hw.dom x).1 (by rw [ho]; simp)) hy]
  simp

theorem follow_append (h : Heap) (a b : List Nat) (p : Nat) : follow h p (a ++ b) = (follow h p a).bind fun x => follow h x b := by
  induction a generalizing p with
  | nil => rfl
  | cons k a ih =>
    simp only [List.cons_append, follow]
    cases h.obj p with
    | none => rfl
    | some n =>
      simp only
      rcases n.refs[k]? with _ | _ | c
      · rfl
      · rfl
      · exact ih c

theorem Way.step {h : Heap} (hw : h.Wf) {roots} {m m'} (hm : MapLe h m m') {p c : Nat} {n : Node} (w : Way h roots m p) (hp : h.obj p = some n)
    (hc : some c ∈ n.refs) (hreg : ∀ l as, n = .node l [] as → m' p ≠ none) : Way h roots m' c := by
  obtain ⟨root, path, h1, h2, h3⟩ := w.mono hw hm
  obtain ⟨k, hk, hk'⟩ := List.mem_iff_getElem.1 hc
  refine ⟨root, path ++ [k], h1, ?_, ?_⟩
  · rw [follow_append, h2]
    simp [follow, hp, List.getElem?_eq_getElem hk, hk']
  · intro j x l as hj hx ho
    simp only [List.length_append, List.length_singleton] at hj
    rw [List.take_append_of_le_length (by omega)] at hx
    by_cases hjl : j < path.length
    · exact h3 j x l as hjl hx ho
    · rw [List.take_of_length_le (by omega), h2] at hx
      cases hx
      rw [hp] at ho
      cases ho
      exact hreg l as rfl

/-- What is copied before `p` is registered does not lead back to `p`. -/
theorem NoReturn.reach {h : Heap} {roots} (hn : NoReturn h roots) {m} {p l bs as c} (w : Way h roots m p) (hp : h.obj p = some (.node l bs as))
    (hc : some c ∈ bs) : ¬ Reach h m c p := by
  intro hr
  obtain ⟨path, g1, g2⟩ := hr.path
  rcases hn p l bs as c hp hc with hh | ⟨x, l', as', hx, hroot, hcp⟩
  · exact hh path g1
  · obtain ⟨root, rp, r1, r2, r3⟩ := w
    obtain ⟨k, hk⟩ := hroot root rp r1 r2
    obtain ⟨j, hj⟩ := hcp path g1
    by_cases hkl : k < rp.length
    · exact r3 k x l' as' hkl hk hx (g2 j x hj)
    · rw [List.take_of_length_le (by omega), r2] at hk
      cases hk
      rw [hp] at hx
      cases hx
      cases hc

open Classical in
/-- Number of objects that are not in the map. -/
noncomputable def unm (h : Heap) (st : St) : Nat := ((Finset.range h.next).filter fun x => st.map x = none).card

open Classical in
/-- Number of objects that are reached, with identifiers after their declaration. -/
noncomputable def rank (h : Heap) (st : St) (p : Nat) : Nat :=
  2 * ((Finset.range h.next).filter fun x => Reach h st.map p x).card + (if ∃ d, h.obj p = some (.ident d) then 1 else 0)

/-- The measure of the recursion. -/
noncomputable def mu (h : Heap) (st : St) (p : Nat) : Nat := unm h st * (2 * h.next + 2) + rank h st p

theorem rank_le (h : Heap) (st : St) (p : Nat) : rank h st p ≤ 2 * h.next + 1 := by
  classical
  unfold rank
  have := Finset.card_filter_le (Finset.range h.next) (fun x => Reach h st.map p x)
  simp only [Finset.card_range] at this
  split_ifs <;> omega

theorem rank_anti {h : Heap} (hw : h.Wf) {st st' : St} (hm : MapLe h st.map st'.map) {p : Nat} (hp : p < h.next) : rank h st' p ≤ rank h st p := by
  classical
  have : ((Finset.range h.next).filter fun x => Reach h st'.map p x).card ≤ ((Finset.range h.next).filter fun x => Reach h st.map p x).card := by
    apply Finset.card_le_card
    intro x hx
    simp only [Finset.mem_filter, Finset.mem_range] at hx ⊢
    exact ⟨hx.1, hx.2.anti hw hm hp⟩
  unfold rank
  omega

theorem unm_le {h : Heap} {st st' : St} (e : MapLe h st.map st'.map) : unm h st' ≤ unm h st := by
  classical
  unfold unm
  apply Finset.card_le_card
  intro x hx
  simp only [Finset.mem_filter, Finset.mem_range] at hx ⊢
  refine ⟨hx.1, ?_⟩
  cases hm : st.map x with
  | none => rfl
  | some y =>
    have := e x y hx.1 hm
    simp [this] at hx

theorem unm_lt {h : Heap} {st st' : St} (e : MapLe h st.map st'.map) {p : Nat} (hp : p < h.next) (h1 : st.map p = none)
    (h2 : st'.map p ≠ none) : unm h st' < unm h st := by
  classical
  unfold unm
  apply Finset.card_lt_card
  rw [Finset.ssubset_iff_of_subset]
  · refine ⟨p, by simp [hp, h1], by simp [h2]⟩
  · intro x hx
    simp only [Finset.mem_filter, Finset.mem_range] at hx ⊢
    refine ⟨hx.1, ?_⟩
    cases hm : st.map x with
    | none => rfl
    | some y =>
      have := e x y hx.1 hm
      simp [this] at hx

theorem rank_before {h : Heap} (hw : h.Wf) {st : St} {p c : Nat} {l bs as} (hp : h.obj p = some (.node l bs as)) (hc : some c ∈ bs)
    (hm : st.map p = none) (hn : ¬ Reach h st.map c p) : rank h st c < rank h st p := by
  classical
  have hpn : p < h.next := (hw.dom p).1 (by rw [hp]; simp)
  have hcr : some c ∈ (Node.node l bs as).refs := List.mem_append_left _ hc
  have : ((Finset.range h.next).filter fun x => Reach h st.map c x).card < ((Finset.range h.next).filter fun x => Reach h st.map p x).card := by
    apply Finset.card_lt_card
    rw [Finset.ssubset_iff_of_subset]
    · exact ⟨p, by simp [hpn, Reach.refl p hm], by simp [hn]⟩
    · intro x hx
      simp only [Finset.mem_filter, Finset.mem_range] at hx ⊢
      exact ⟨hx.1, .step p c x _ hm hp hcr hx.2⟩
  unfold rank
  split_ifs <;> omega

theorem rank_ident {h : Heap} (hw : h.Wf) {st : St} {p d : Nat} (hp : h.obj p = some (.ident d)) (hm : st.map p = none) :
    rank h st d < rank h st p := by
  classical
  have : ((Finset.range h.next).filter fun x => Reach h st.map d x).card ≤ ((Finset.range h.next).filter fun x => Reach h st.map p x).card := by
    apply Finset.card_le_card
    intro x hx
    simp only [Finset.mem_filter, Finset.mem_range] at hx ⊢
    exact ⟨hx.1, .step p d x _ hm hp (by simp [Node.refs]) hx.2⟩
  obtain ⟨l, i, as, hd⟩ := hw.ids p d hp
  unfold rank
  rw [if_neg (by rw [hd]; simp), if_pos ⟨d, hp⟩]
  omega

/-- What copying one object achieves. -/
def Good (h : Heap) (st : St) (opn : Nat → Prop) (p : Nat) (r : Option (St × Nat)) : Prop :=
  ∃ st' q, r = some (st', q) ∧ Inv h st' opn ∧ Ext h st st' ∧ Rel h st'.map p q ∧
    ∀ x, x < h.next → st.map x = none → st'.map x ≠ none → Reach h st.map p x

theorem copyList_good {h : Heap} (hw : h.Wf) {roots : List (Option Nat)} {fuel : Nat}
    (ih : ∀ st opn p, Inv h st opn → p < h.next → Way h roots st.map p → mu h st p < fuel → Good h st opn p (copyE fuel st p))
    {opn : Nat → Prop} : ∀ (cs : List (Option Nat)) (st : St), Inv h st opn →
      (∀ c, some c ∈ cs → c < h.next ∧ Way h roots st.map c ∧ mu h st c < fuel) →
      ∃ st' r, copyList (copyE fuel) st cs = some (st', r) ∧ Inv h st' opn ∧ Ext h st st' ∧ Rels h st'.map cs r ∧
        ∀ x, x < h.next → st.map x = none → st'.map x ≠ none → ∃ c, some c ∈ cs ∧ Reach h st.map c x := by
  intro cs
  induction cs with
  | nil =>
    intro st hi _
    exact ⟨st, [], rfl, hi, Ext.refl h st, List.Forall₂.nil, fun x _ h1 h2 => absurd h1 h2⟩
  | cons c cs IH =>
    intro st hi hcs
    cases c with
    | none =>
      obtain ⟨st', r, h1, h2, h3, h4, h5⟩ := IH st hi (fun c hc => hcs c (List.mem_cons_of_mem _ hc))
      refine ⟨st', none :: r, by simp [copyList, h1], h2, h3, List.Forall₂.cons Option.Rel.none h4, ?_⟩
      intro x hx a b
      obtain ⟨c, hc, hr⟩ := h5 x hx a b
      exact ⟨c, List.mem_cons_of_mem _ hc, hr⟩
    | some c =>
      obtain ⟨hc1, hcw, hc2⟩ := hcs c List.mem_cons_self
      obtain ⟨st1, q, g1, g2, g3, g4, g5⟩ := ih st opn c hi hc1 hcw hc2
      obtain ⟨st', r, h1, h2, h3, h4, h5⟩ := IH st1 g2 (fun c hc => by
        obtain ⟨a, w, b⟩ := hcs c (List.mem_cons_of_mem _ hc)
        refine ⟨a, w.mono hw g3.map, lt_of_le_of_lt ?_ b⟩
        unfold mu
        exact Nat.add_le_add (Nat.mul_le_mul_right _ (unm_le g3.map)) (rank_anti hw g3.map a))
      refine ⟨st', some q :: r, by simp [copyList, g1, h1], h2, g3.trans h3, List.Forall₂.cons (Option.Rel.some (g4.mono h3.map)) h4, ?_⟩
      intro x hx a b
      by_cases hm : st1.map x = none
      · obtain ⟨c, hc, hr⟩ := h5 x hx hm b
        exact ⟨c, List.mem_cons_of_mem _ hc, hr.anti hw g3.map (hcs c (List.mem_cons_of_mem _ hc)).1⟩
      · exact ⟨c, List.mem_cons_self, g5 x hx a hm⟩

/-- Registering a new copy of a node. -/
theorem Inv.register {h : Heap} (hw : h.Wf) {st : St} {opn : Nat → Prop} (hi : Inv h st opn) {p l bs as bs'} (hp : h.obj p = some (.node l bs as))
    (hm : st.map p = none) (hb : Rels h st.map bs bs') :
    Inv h (insert (alloc st (.node l bs' [])) p st.heap.next) (fun x => opn x ∨ x = p) ∧
      Ext h st (insert (alloc st (.node l bs' [])) p st.heap.next) := by
  have hpn : p < h.next := (hw.dom p).1 (by rw [hp]; simp)
  have hle : MapLe h st.map (Function.update st.map p (some st.heap.next)) := by
    intro x y hx hy
    rw [Function.update_of_ne]
    · exact hy
    · rintro rfl
      rw [hm] at hy; cases hy
  have hobj : ∀ x, x < st.heap.next → Function.update st.heap.obj st.heap.next (some (Node.node l bs' [])) x = st.heap.obj x :=
    fun x hx => Function.update_of_ne (ne_of_lt hx) _ _
  have hobj' : ∀ x n, st.heap.obj x = some n → Function.update st.heap.obj st.heap.next (some (Node.node l bs' [])) x = some n := by
    intro x n hx
    rw [Function.update_of_ne, hx]
    rintro rfl
    rw [hi.fin _ (le_refl _)] at hx; cases hx
  refine ⟨⟨?_, ?_, ?_, ?_, ?_, ?_, ?_, ?_, ?_⟩, ⟨Nat.le_succ _, hobj, hle⟩⟩
  · exact le_trans hi.le (Nat.le_succ _)
  · intro x hx
    simp only [insert, alloc] at hx ⊢
    rw [Function.update_of_ne (by omega)]
    exact hi.fin x (by omega)
  · intro x hx
    simp only [insert, alloc]
    rw [hobj x (lt_of_lt_of_le hx hi.le)]
    exact hi.old x hx
  · intro p' q' hp' hq'
    simp only [insert, alloc] at hq' ⊢
    by_cases he : p' = p
    · subst he
      rw [Function.update_self] at hq'
      cases hq'
      exact ⟨hi.le, Nat.lt_succ_self _⟩
    · rw [Function.update_of_ne he] at hq'
      obtain ⟨a, b⟩ := hi.dom p' q' hp' hq'
      exact ⟨a, Nat.lt_succ_of_lt b⟩
  · intro p1 p2 q hp1 hp2 h1 h2
    simp only [insert, alloc] at h1 h2
    by_cases e1 : p1 = p <;> by_cases e2 : p2 = p
    · exact Or.inl (e1.trans e2.symm)
    · rw [e1, Function.update_self] at h1
      rw [Function.update_of_ne e2] at h2
      cases h1
      exact absurd (hi.dom _ _ hp2 h2).2 (lt_irrefl _)
    · rw [e2, Function.update_self] at h2
      rw [Function.update_of_ne e1] at h1
      cases h2
      exact absurd (hi.dom _ _ hp1 h1).2 (lt_irrefl _)
    · rw [Function.update_of_ne e1] at h1
      rw [Function.update_of_ne e2] at h2
      exact hi.inj p1 p2 q hp1 hp2 h1 h2
  · intro p' q' l' bs1 as1 ho hq'
    simp only [insert, alloc] at hq' ⊢
    by_cases he : p' = p
    · subst he
      rw [Function.update_self] at hq'
      cases hq'
      rw [hp] at ho
      cases ho
      exact ⟨bs', [], Function.update_self _ _ _, hb.mono hle, fun hn => absurd (Or.inr rfl) hn⟩
    · rw [Function.update_of_ne he] at hq'
      obtain ⟨b1, a1, k1, k2, k3⟩ := hi.nodeOk p' q' l' bs1 as1 ho hq'
      exact ⟨b1, a1, hobj' _ _ k1, k2.mono hle, fun hn => (k3 fun hh => hn (Or.inl hh)).mono hle⟩
  · intro p' q' l' i1 as1 ho hq'
    simp only [insert, alloc] at hq' ⊢
    have he : p' ≠ p := by
      rintro rfl
      rw [hp] at ho; cases ho
    rw [Function.update_of_ne he] at hq'
    obtain ⟨b1, a1, k1, k2, k3, k4⟩ := hi.declOk p' q' l' i1 as1 ho hq'
    exact ⟨b1, a1, hobj' _ _ k1, hobj' _ _ k2, k3, fun hn => (k4 fun hh => hn (Or.inl hh)).mono hle⟩
  · intro p' q' d ho hq'
    simp only [insert, alloc] at hq' ⊢
    have he : p' ≠ p := by
      rintro rfl
      rw [hp] at ho; cases ho
    rw [Function.update_of_ne he] at hq'
    obtain ⟨dq, l1, a1, k1, k2, k3⟩ := hi.idOk p' q' d ho hq'
    have hd : d < h.next := hw.refs p' _ d ho (by simp [Node.refs])
    exact ⟨dq, l1, a1, hle _ _ hd k1, hobj' _ _ k2, hobj' _ _ k3⟩
  · intro p' l' ho
    simp only [insert, alloc]
    have he : p' ≠ p := by
      rintro rfl
      rw [hp] at ho; cases ho
    rw [Function.update_of_ne he]
    exact hi.constNo p' l' ho

/-- Filling in the later references of a node. -/
theorem Inv.fill {h : Heap} (hw : h.Wf) {st : St} {opn : Nat → Prop} {p q l bs as bs' as'} (hi : Inv h st (fun x => opn x ∨ x = p))
    (hp : h.obj p = some (.node l bs as)) (hm : st.map p = some q) (hb : Rels h st.map bs bs') (ha : Rels h st.map as as') :
    Inv h (write st q (.node l bs' as')) opn := by
  have hpn : p < h.next := (hw.dom p).1 (by rw [hp]; simp)
  obtain ⟨hq1, hq2⟩ := hi.dom p q hpn hm
  obtain ⟨b0, a0, hq, -, -⟩ := hi.nodeOk p q l bs as hp hm
  have hobj : ∀ x n, st.heap.obj x = some n → (∀ l b a, n ≠ .node l b a) →
      Function.update st.heap.obj q (some (Node.node l bs' as')) x = some n := by
    intro x n hx hn
    rw [Function.update_of_ne, hx]
    rintro rfl
    rw [hq] at hx; cases hx
    exact hn _ _ _ rfl
  refine ⟨hi.le, ?_, ?_, hi.dom, hi.inj, ?_, ?_, ?_, hi.constNo⟩
  · intro x hx
    simp only [write] at hx ⊢
    rw [Function.update_of_ne (by omega)]
    exact hi.fin x hx
  · intro x hx
    simp only [write]
    rw [Function.update_of_ne (by omega)]
    exact hi.old x hx
  · intro p' q' l' bs1 as1 ho hq'
    simp only [write] at hq' ⊢
    by_cases he : p' = p
    · subst he
      rw [hm] at hq'
      cases hq'
      rw [hp] at ho
      cases ho
      exact ⟨bs', as', Function.update_self _ _ _, hb, fun _ => ha⟩
    · obtain ⟨b1, a1, k1, k2, k3⟩ := hi.nodeOk p' q' l' bs1 as1 ho hq'
      have hpn' : p' < h.next := (hw.dom p').1 (by rw [ho]; simp)
      have hne : q' ≠ q := by
        rintro rfl
        rcases hi.inj p' p q' hpn' hpn hq' hm with e | ⟨d, e, -⟩
        · exact he e
        · rw [ho] at e; cases e
      exact ⟨b1, a1, by rw [Function.update_of_ne hne]; exact k1, k2, fun hn => k3 fun hh => hh.elim hn he⟩
  · intro p' q' l' i1 as1 ho hq'
    simp only [write] at hq' ⊢
    have he : p' ≠ p := by
      rintro rfl
      rw [hp] at ho; cases ho
    obtain ⟨b1, a1, k1, k2, k3, k4⟩ := hi.declOk p' q' l' i1 as1 ho hq'
    exact ⟨b1, a1, hobj _ _ k1 (by simp), hobj _ _ k2 (by simp), k3, fun hn => k4 fun hh => hh.elim hn he⟩
  · intro p' q' d ho hq'
    simp only [write] at hq' ⊢
    obtain ⟨dq, l1, a1, k1, k2, k3⟩ := hi.idOk p' q' d ho hq'
    exact ⟨dq, l1, a1, k1, hobj _ _ k2 (by simp), hobj _ _ k3 (by simp)⟩

/-- Registering a new copy of a declaration. -/
theorem Inv.registerDecl {h : Heap} (hw : h.Wf) {st : St} {opn : Nat → Prop} (hi : Inv h st opn) {p l i as} (hp : h.obj p = some (.decl l i as))
    (hm : st.map p = none) {st2 : St}
    (hst2 : st2 = insert (insert (alloc (alloc st (.decl l (st.heap.next + 1) [])) (.ident st.heap.next)) p st.heap.next) st.heap.next st.heap.next) :
    Inv h st2 (fun x => opn x ∨ x = p) ∧ Ext h st st2 ∧ st2.heap.next = st.heap.next + 2 ∧ st2.map p = some st.heap.next ∧
      st2.heap.obj st.heap.next = some (.decl l (st.heap.next + 1) []) ∧ st2.heap.obj (st.heap.next + 1) = some (.ident st.heap.next) ∧
      ∀ x, x < h.next → x ≠ p → st2.map x = st.map x := by
  have hpn : p < h.next := (hw.dom p).1 (by rw [hp]; simp)
  have hn2 : st2.heap.next = st.heap.next + 2 := by subst hst2; rfl
  have hmp : st2.map p = some st.heap.next := by
    subst hst2
    have := hi.le
    simp only [insert, alloc]
    rw [Function.update_of_ne (by omega), Function.update_self]
  have hmo : ∀ x, x < h.next → x ≠ p → st2.map x = st.map x := by
    subst hst2
    intro x hx hne
    have := hi.le
    simp only [insert, alloc]
    rw [Function.update_of_ne (by omega), Function.update_of_ne hne]
  have ho1 : st2.heap.obj st.heap.next = some (.decl l (st.heap.next + 1) []) := by
    subst hst2
    simp only [insert, alloc]
    rw [Function.update_of_ne (by omega), Function.update_self]
  have ho2 : st2.heap.obj (st.heap.next + 1) = some (.ident st.heap.next) := by
    subst hst2
    simp only [insert, alloc]
    rw [Function.update_self]
  have hoo : ∀ x, x ≠ st.heap.next → x ≠ st.heap.next + 1 → st2.heap.obj x = st.heap.obj x := by
    subst hst2
    intro x h1 h2
    simp only [insert, alloc]
    rw [Function.update_of_ne h2, Function.update_of_ne h1]
  clear hst2
  have hle : MapLe h st.map st2.map := by
    intro x y hx hy
    rw [hmo x hx, hy]
    rintro rfl
    rw [hm] at hy; cases hy
  have hobj' : ∀ x n, st.heap.obj x = some n → st2.heap.obj x = some n := by
    intro x n hx
    rw [hoo x, hx]
    · rintro rfl
      rw [hi.fin _ (le_refl _)] at hx; cases hx
    · rintro rfl
      rw [hi.fin _ (Nat.le_succ _)] at hx; cases hx
  have hil := hi.le
  refine ⟨⟨by omega, ?_, ?_, ?_, ?_, ?_, ?_, ?_, ?_⟩, ⟨by omega, fun x hx => hoo x (by omega) (by omega), hle⟩, hn2, hmp, ho1, ho2, hmo⟩
  · intro x hx
    rw [hoo x (by omega) (by omega)]
    exact hi.fin x (by omega)
  · intro x hx
    rw [hoo x (by omega) (by omega)]
    exact hi.old x hx
  · intro p' q' hp' hq'
    by_cases he : p' = p
    · subst he
      rw [hmp] at hq'
      cases hq'
      omega
    · rw [hmo p' hp' he] at hq'
      obtain ⟨a, b⟩ := hi.dom p' q' hp' hq'
      omega
  · intro p1 p2 q hp1 hp2 h1 h2
    by_cases e1 : p1 = p <;> by_cases e2 : p2 = p
    · exact Or.inl (e1.trans e2.symm)
    · rw [e1, hmp] at h1
      rw [hmo p2 hp2 e2] at h2
      cases h1
      exact absurd (hi.dom _ _ hp2 h2).2 (lt_irrefl _)
    · rw [e2, hmp] at h2
      rw [hmo p1 hp1 e1] at h1
      cases h2
      exact absurd (hi.dom _ _ hp1 h1).2 (lt_irrefl _)
    · rw [hmo p1 hp1 e1] at h1
      rw [hmo p2 hp2 e2] at h2
      exact hi.inj p1 p2 q hp1 hp2 h1 h2
  · intro p' q' l' bs1 as1 ho hq'
    have hpn' : p' < h.next := (hw.dom p').1 (by rw [ho]; simp)
    have he : p' ≠ p := by
      rintro rfl
      rw [hp] at ho; cases ho
    rw [hmo p' hpn' he] at hq'
    obtain ⟨b1, a1, k1, k2, k3⟩ := hi.nodeOk p' q' l' bs1 as1 ho hq'
    exact ⟨b1, a1, hobj' _ _ k1, k2.mono hle, fun hn => (k3 fun hh => hn (Or.inl hh)).mono hle⟩
  · intro p' q' l' i1 as1 ho hq'
    have hpn' : p' < h.next := (hw.dom p').1 (by rw [ho]; simp)
    by_cases he : p' = p
    · subst he
      rw [hmp] at hq'
      cases hq'
      rw [hp] at ho
      cases ho
      exact ⟨_, _, ho1, ho2, by omega, fun hn => absurd (Or.inr rfl) hn⟩
    · rw [hmo p' hpn' he] at hq'
      obtain ⟨b1, a1, k1, k2, k3, k4⟩ := hi.declOk p' q' l' i1 as1 ho hq'
      exact ⟨b1, a1, hobj' _ _ k1, hobj' _ _ k2, k3, fun hn => (k4 fun hh => hn (Or.inl hh)).mono hle⟩
  · intro p' q' d ho hq'
    have hpn' : p' < h.next := (hw.dom p').1 (by rw [ho]; simp)
    have he : p' ≠ p := by
      rintro rfl
      rw [hp] at ho; cases ho
    rw [hmo p' hpn' he] at hq'
    obtain ⟨dq, l1, a1, k1, k2, k3⟩ := hi.idOk p' q' d ho hq'
    have hd : d < h.next := hw.refs p' _ d ho (by simp [Node.refs])
    exact ⟨dq, l1, a1, hle _ _ hd k1, hobj' _ _ k2, hobj' _ _ k3⟩
  · intro p' l' ho
    have hpn' : p' < h.next := (hw.dom p').1 (by rw [ho]; simp)
    have he : p' ≠ p := by
      rintro rfl
      rw [hp] at ho; cases ho
    rw [hmo p' hpn' he]
    exact hi.constNo p' l' ho

/-- Filling in the references of a declaration. -/
theorem Inv.fillDecl {h : Heap} (hw : h.Wf) {st : St} {opn : Nat → Prop} {p q l i i' as a0 as'} (hi : Inv h st (fun x => opn x ∨ x = p))
    (hp : h.obj p = some (.decl l i as)) (hm : st.map p = some q) (hq : st.heap.obj q = some (.decl l i' a0))
    (hqi : st.heap.obj i' = some (.ident q)) (hin : h.next ≤ i') (ha : Rels h st.map as as') :
    Inv h (write st q (.decl l i' as')) opn := by
  have hpn : p < h.next := (hw.dom p).1 (by rw [hp]; simp)
  obtain ⟨hq1, hq2⟩ := hi.dom p q hpn hm
  have hobj : ∀ x n, st.heap.obj x = some n → (∀ l b a, n ≠ .decl l b a) →
      Function.update st.heap.obj q (some (Node.decl l i' as')) x = some n := by
    intro x n hx hn
    rw [Function.update_of_ne, hx]
    rintro rfl
    rw [hq] at hx; cases hx
    exact hn _ _ _ rfl
  refine ⟨hi.le, ?_, ?_, hi.dom, hi.inj, ?_, ?_, ?_, hi.constNo⟩
  · intro x hx
    simp only [write] at hx ⊢
    rw [Function.update_of_ne (by omega)]
    exact hi.fin x hx
  · intro x hx
    simp only [write]
    rw [Function.update_of_ne (by omega)]
    exact hi.old x hx
  · intro p' q' l' bs1 as1 ho hq'
    simp only [write] at hq' ⊢
    have he : p' ≠ p := by
      rintro rfl
      rw [hp] at ho; cases ho
    obtain ⟨b1, a1, k1, k2, k3⟩ := hi.nodeOk p' q' l' bs1 as1 ho hq'
    exact ⟨b1, a1, hobj _ _ k1 (by simp), k2, fun hn => k3 fun hh => hh.elim hn he⟩
  · intro p' q' l' i1 as1 ho hq'
    simp only [write] at hq' ⊢
    by_cases he : p' = p
    · subst he
      rw [hm] at hq'
      cases hq'
      rw [hp] at ho
      cases ho
      exact ⟨i', as', Function.update_self _ _ _, hobj _ _ hqi (by simp), hin, fun _ => ha⟩
    · obtain ⟨b1, a1, k1, k2, k3, k4⟩ := hi.declOk p' q' l' i1 as1 ho hq'
      have hpn' : p' < h.next := (hw.dom p').1 (by rw [ho]; simp)
      have hne : q' ≠ q := by
        rintro rfl
        rcases hi.inj p' p q' hpn' hpn hq' hm with e | ⟨d, e, -⟩
        · exact he e
        · rw [ho] at e; cases e
      exact ⟨b1, a1, by rw [Function.update_of_ne hne]; exact k1, hobj _ _ k2 (by simp), k3, fun hn => k4 fun hh => hh.elim hn he⟩
  · intro p' q' d ho hq'
    simp only [write] at hq' ⊢
    obtain ⟨dq, l1, a1, k1, k2, k3⟩ := hi.idOk p' q' d ho hq'
    by_cases hdq : dq = q
    · subst hdq
      rw [hq] at k2
      cases k2
      exact ⟨dq, _, as', k1, Function.update_self _ _ _, hobj _ _ k3 (by simp)⟩
    · exact ⟨dq, l1, a1, k1, by rw [Function.update_of_ne hdq]; exact k2, hobj _ _ k3 (by simp)⟩

/-- Registering the identifier of a copied declaration. -/
theorem Inv.insertId {h : Heap} (hw : h.Wf) {st : St} {opn : Nat → Prop} {p d dq l i as'} (hi : Inv h st opn)
    (hp : h.obj p = some (.ident d)) (hd : st.map d = some dq) (hdq : st.heap.obj dq = some (.decl l i as'))
    (hid : st.heap.obj i = some (.ident dq)) (hin : h.next ≤ i) :
    Inv h (insert st p i) opn ∧ Ext h st (insert st p i) := by
  have hpn : p < h.next := (hw.dom p).1 (by rw [hp]; simp)
  have hdn : d < h.next := hw.refs p _ d hp (by simp [Node.refs])
  have hsame : ∀ q, st.map p = some q → q = i := by
    intro q hq
    obtain ⟨dq', l', a', k1, k2, k3⟩ := hi.idOk p q d hp hq
    rw [hd] at k1
    cases k1
    rw [hdq] at k2
    cases k2
    rfl
  have hle : MapLe h st.map (Function.update st.map p (some i)) := by
    intro x y hx hy
    by_cases he : x = p
    · subst he
      rw [Function.update_self, hsame y hy]
    · rw [Function.update_of_ne he, hy]
  have hinj : ∀ p2, p2 < h.next → st.map p2 = some i → h.obj p2 = some (.ident d) := by
    intro p2 hp2 hm2
    obtain ⟨n, hn⟩ := Option.ne_none_iff_exists'.1 ((hw.dom p2).2 hp2)
    cases n with
    | const l => rw [hi.constNo p2 l hn] at hm2; cases hm2
    | node l bs as =>
      obtain ⟨b1, a1, k1, -⟩ := hi.nodeOk _ _ _ _ _ hn hm2
      rw [hid] at k1; cases k1
    | decl l i as =>
      obtain ⟨b1, a1, k1, -⟩ := hi.declOk _ _ _ _ _ hn hm2
      rw [hid] at k1; cases k1
    | ident d2 =>
      obtain ⟨dq', l', a', k1, k2, k3⟩ := hi.idOk _ _ _ hn hm2
      rw [hid] at k3
      cases k3
      have hd2n : d2 < h.next := hw.refs p2 _ d2 hn (by simp [Node.refs])
      rcases hi.inj d2 d dq hd2n hdn k1 hd with e | ⟨e, -, he⟩
      · rw [hn, e]
      · obtain ⟨l, i, as, hh⟩ := hw.ids p d hp
        rw [hh] at he; cases he
  refine ⟨⟨hi.le, hi.fin, hi.old, ?_, ?_, ?_, ?_, ?_, ?_⟩, ⟨le_refl _, fun _ _ => rfl, hle⟩⟩
  · intro p' q' hp' hq'
    simp only [insert] at hq' ⊢
    by_cases he : p' = p
    · subst he
      rw [Function.update_self] at hq'
      cases hq'
      refine ⟨hin, ?_⟩
      by_contra hc
      rw [hi.fin i (by omega)] at hid
      cases hid
    · rw [Function.update_of_ne he] at hq'
      exact hi.dom p' q' hp' hq'
  · intro p1 p2 q hp1 hp2 h1 h2
    simp only [insert] at h1 h2
    by_cases e1 : p1 = p <;> by_cases e2 : p2 = p
    · exact Or.inl (e1.trans e2.symm)
    · rw [e1, Function.update_self] at h1
      rw [Function.update_of_ne e2] at h2
      cases h1
      exact Or.inr ⟨d, by rw [e1]; exact hp, hinj p2 hp2 h2⟩
    · rw [e2, Function.update_self] at h2
      rw [Function.update_of_ne e1] at h1
      cases h2
      exact Or.inr ⟨d, hinj p1 hp1 h1, by rw [e2]; exact hp⟩
    · rw [Function.update_of_ne e1] at h1
      rw [Function.update_of_ne e2] at h2
      exact hi.inj p1 p2 q hp1 hp2 h1 h2
  · intro p' q' l' bs1 as1 ho hq'
    simp only [insert] at hq' ⊢
    have he : p' ≠ p := by
      rintro rfl
      rw [hp] at ho; cases ho
    rw [Function.update_of_ne he] at hq'
    obtain ⟨b1, a1, k1, k2, k3⟩ := hi.nodeOk p' q' l' bs1 as1 ho hq'
    exact ⟨b1, a1, k1, k2.mono hle, fun hn => (k3 hn).mono hle⟩
  · intro p' q' l' i1 as1 ho hq'
    simp only [insert] at hq' ⊢
    have he : p' ≠ p := by
      rintro rfl
      rw [hp] at ho; cases ho
    rw [Function.update_of_ne he] at hq'
    obtain ⟨b1, a1, k1, k2, k3, k4⟩ := hi.declOk p' q' l' i1 as1 ho hq'
    exact ⟨b1, a1, k1, k2, k3, fun hn => (k4 hn).mono hle⟩
  · intro p' q' d' ho hq'
    simp only [insert] at hq' ⊢
    by_cases he : p' = p
    · subst he
      rw [Function.update_self] at hq'
      cases hq'
      rw [hp] at ho
      cases ho
      exact ⟨dq, l, as', hle _ _ hdn hd, hdq, hid⟩
    · rw [Function.update_of_ne he] at hq'
      obtain ⟨dq, l1, a1, k1, k2, k3⟩ := hi.idOk p' q' d' ho hq'
      have hd : d' < h.next := hw.refs p' _ d' ho (by simp [Node.refs])
      exact ⟨dq, l1, a1, hle _ _ hd k1, k2, k3⟩
  · intro p' l' ho
    simp only [insert]
    have he : p' ≠ p := by
      rintro rfl
      rw [hp] at ho; cases ho
    rw [Function.update_of_ne he]
    exact hi.constNo p' l' ho

theorem mu_after {h : Heap} {st st2 : St} {p c : Nat} (hlt : unm h st2 < unm h st) : mu h st2 c < mu h st p := by
  unfold mu
  have h1 := rank_le h st2 c
  have h2 : (unm h st2 + 1) * (2 * h.next + 2) ≤ unm h st * (2 * h.next + 2) := Nat.mul_le_mul_right _ hlt
  rw [Nat.add_mul] at h2
  omega

theorem copyE_good {h : Heap} (hw : h.Wf) {roots : List (Option Nat)} (hnr : NoReturn h roots) : ∀ (fuel : Nat) (st : St) (opn : Nat → Prop) (p : Nat), Inv h st opn → p < h.next →
    Way h roots st.map p → mu h st p < fuel → Good h st opn p (copyE fuel st p) := by
  intro fuel
  induction fuel with
  | zero => intro st opn p _ _ _ hlt; omega
  | succ fuel ih =>
    intro st opn p hi hpn hway hlt
    unfold copyE
    cases hm : st.map p with
    | some q => exact ⟨st, q, rfl, hi, Ext.refl h st, ⟨hpn, Or.inl hm⟩, fun x _ h1 h2 => absurd h1 h2⟩
    | none =>
      have hold := hi.old p hpn
      obtain ⟨n, hn⟩ := Option.ne_none_iff_exists'.1 ((hw.dom p).2 hpn)
      rw [hold, hn]
      cases n with
      | const l =>
        exact ⟨st, p, rfl, hi, Ext.refl h st, ⟨hpn, Or.inr ⟨⟨l, hn⟩, rfl⟩⟩, fun x _ h1 h2 => absurd h1 h2⟩
      | node l bs as =>
        obtain ⟨st1, bs', b1, b2, b3, b4, b5⟩ := copyList_good hw ih bs st hi (fun c hc => by
          refine ⟨hw.refs p _ c hn (List.mem_append_left _ hc), hway.step hw (Ext.refl h st).map hn (List.mem_append_left _ hc) ?_, ?_⟩
          · rintro l' as' e
            cases e
            cases hc
          have := rank_before hw hn hc hm (hnr.reach hway hn hc)
          unfold mu at hlt ⊢
          omega)
        have hm1 : st1.map p = none := by
          by_contra hc
          obtain ⟨c, hc, hr⟩ := b5 p hpn hm hc
          exact hnr.reach hway hn hc hr
        obtain ⟨r1, r2⟩ := b2.register hw hn hm1 b4
        have hm2 : (insert (alloc st1 (.node l bs' [])) p st1.heap.next).map p = some st1.heap.next := Function.update_self _ _ _
        obtain ⟨st3, as', a1, a2, a3, a4, a5⟩ := copyList_good hw ih as _ r1 (fun c hc => by
          refine ⟨hw.refs p _ c hn (List.mem_append_right _ hc), hway.step hw (b3.map.trans r2.map) hn (List.mem_append_right _ hc) ?_, ?_⟩
          · intro _ _ _
            rw [hm2]; simp
          have h1 := unm_lt r2.map hpn hm1 (by rw [hm2]; simp)
          have h2 := unm_le b3.map
          have := mu_after (h := h) (st := st) (st2 := insert (alloc st1 (.node l bs' [])) p st1.heap.next) (p := p) (c := c) (by omega)
          omega)
        have hm3 := a3.map p _ hpn hm2
        refine ⟨write st3 st1.heap.next (.node l bs' as'), st1.heap.next, ?_, ?_, ?_, ⟨hpn, Or.inl hm3⟩, ?_⟩
        · simp [b1, a1]
        · exact a2.fill hw hn hm3 ((b4.mono r2.map).mono a3.map) a4
        · refine ⟨le_trans b3.le (le_trans r2.le a3.le), ?_, b3.map.trans (r2.map.trans a3.map)⟩
          intro x hx
          have hb := b3.le
          simp only [write]
          rw [Function.update_of_ne (by omega)]
          exact (b3.trans (r2.trans a3)).obj x hx
        · intro x hx h1 h2
          by_cases hx1 : st1.map x = none
          · by_cases hx2 : x = p
            · rw [hx2]; exact .refl p hm
            · obtain ⟨c, hc, hr⟩ := a5 x hx (by
                simp only [insert, alloc]
                rw [Function.update_of_ne hx2]; exact hx1) h2
              have hcn := hw.refs p _ c hn (List.mem_append_right _ hc)
              exact .step p c x _ hm hn (List.mem_append_right _ hc) (hr.anti hw (b3.map.trans r2.map) hcn)
          · obtain ⟨c, hc, hr⟩ := b5 x hx h1 hx1
            exact .step p c x _ hm hn (List.mem_append_left _ hc) hr
      | ident d =>
        have hdn : d < h.next := hw.refs p _ d hn (by simp [Node.refs])
        obtain ⟨ld, idd, asd, hd⟩ := hw.ids p d hn
        obtain ⟨st1, d', g1, g2, g3, g4, g5⟩ := ih st opn d hi hdn (hway.step hw (Ext.refl h st).map hn (by simp [Node.refs]) (by simp)) (by
          have := rank_ident hw hn hm
          unfold mu at hlt ⊢
          omega)
        have hmd : st1.map d = some d' := by
          rcases g4.2 with e | ⟨⟨l, e⟩, -⟩
          · exact e
          · rw [hd] at e; cases e
        obtain ⟨i', a', k1, k2, k3, -⟩ := g2.declOk d d' _ _ _ hd hmd
        obtain ⟨r1, r2⟩ := g2.insertId hw hn hmd k1 k2 k3
        refine ⟨insert st1 p i', i', ?_, r1, g3.trans r2, ⟨hpn, Or.inl (Function.update_self _ _ _)⟩, ?_⟩
        · simp [g1, k1]
        · intro x hx h1 h2
          by_cases hx2 : x = p
          · rw [hx2]; exact .refl p hm
          · simp only [insert] at h2
            rw [Function.update_of_ne hx2] at h2
            exact .step p d x _ hm hn (by simp [Node.refs]) (g5 x hx h1 h2)
      | decl l i as =>
        obtain ⟨r1, r2, r3, hm2, ho1, ho2, hmo⟩ := hi.registerDecl hw hn hm rfl
        obtain ⟨st3, as', a1, a2, a3, a4, a5⟩ := copyList_good hw ih as _ r1 (fun c hc => by
          refine ⟨hw.refs p _ c hn hc, hway.step hw r2.map hn hc (by simp), ?_⟩
          have h1 := unm_lt r2.map hpn hm (by rw [hm2]; simp)
          have := mu_after (p := p) (c := c) h1
          omega)
        have hm3 := a3.map p _ hpn hm2
        have hil := hi.le
        refine ⟨write st3 st.heap.next (.decl l (st.heap.next + 1) as'), st.heap.next, ?_, ?_, ?_, ⟨hpn, Or.inl hm3⟩, ?_⟩
        · simp [a1]
        · exact a2.fillDecl hw hn hm3 (by rw [a3.obj _ (by omega)]; exact ho1) (by rw [a3.obj _ (by omega)]; exact ho2) (by omega) a4
        · refine ⟨le_trans r2.le a3.le, ?_, r2.map.trans a3.map⟩
          intro x hx
          simp only [write]
          rw [Function.update_of_ne (by omega)]
          exact (r2.trans a3).obj x hx
        · intro x hx h1 h2
          by_cases hx2 : x = p
          · rw [hx2]; exact .refl p hm
          · obtain ⟨c, hc, hr⟩ := a5 x hx (by rw [hmo x hx hx2]; exact h1) h2
            exact .step p c x _ hm hn hc (hr.anti hw r2.map (hw.refs p _ c hn hc))

end CopyAst
end MZ
