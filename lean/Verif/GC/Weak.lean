import Verif.GC.HandleProps
/-!
# Weak references (lib/gc.cpp 470–488, 832–877)
-/
namespace MZ
namespace GCHandle

/-- 872–877 `WeakRef::operator()`. -/
def wGet (s : St) (h : Nat) : Ptr :=
  match (s.cell h).e with
  | .unboxed v => .unboxed v
  | e => if (s.cell h).p ≠ none then e else .null

/-- 832–836. -/
def wCtor (s : St) (h : Nat) (e : Ptr) : Res St := kCtor s h e

/-- 837–841. -/
def wDtor (s : St) (h : Nat) : Res St := kDtor s h

/-- 842–846. -/
def wCopy (s : St) (h k : Nat) : Res St := kCtor s h (wGet s k)

/-- 847–870. -/
def wAssign (s : St) (h k : Nat) : Res St :=
  if h = k then .ok s
  else do
    let active := (s.cell h).e.boxed
    let s ←
      if active ∧ ¬ (wGet s k).boxed then do
        let s ← remove s h
        .ok ((s.setP h none).setN h none)
      else .ok s
    let s := s.setE h (wGet s k)
    if ¬ active ∧ (s.cell h).e.boxed then add s h else .ok s

/-- 473–477 and 483–487: take a dead reference out of the list. -/
def dropWeak (s : St) (q : Nat) : Res St := do
  let s ← remove s q
  .ok ((s.setN q none).setP q none)

def dropPrev (s : St) : Option Nat → Res St
  | none => .ok s
  | some q => dropWeak s q

/-- 479: the reference yields a node that is not marked. -/
def deadRef (M : Nat → Bool) (s : St) (w : Nat) : Bool :=
  match wGet s w with
  | .ref a => ! M a
  | _ => false

/-- 470–488: the pass over the weak references after marking (`M`: marked nodes). -/
def weakLoop (M : Nat → Bool) : Nat → St → Option Nat → Option Nat → Res St
  | 0, _, _, _ => .ub
  | _ + 1, s, prev, none => dropPrev s prev
  | f + 1, s, prev, some w => do
    let s ← dropPrev s prev
    if deadRef M s w then
      let s := s.setE w .null
      weakLoop M f s (some w) (s.cell w).n
    else weakLoop M f s none (s.cell w).n

def weakPass (M : Nat → Bool) (f : Nat) (s : St) : Res St := weakLoop M f s none s.head

/-! ## The pass -/

/-- The value is not a node, or a marked one. -/
def kept (M : Nat → Bool) : Ptr → Bool
  | .ref a => M a
  | _ => true

theorem dropWeak_spec {s : St} {A B : List Nat} {q : Nat} (l : Listed s (A ++ q :: B)) :
    ∃ s', dropWeak s q = .ok s' ∧ Listed s' (A ++ B) ∧ (∀ x, (s'.cell x).e = (s.cell x).e) ∧
      (s'.cell q).p = none ∧ (s'.cell q).n = none ∧ ∀ x, x ∉ A ++ q :: B → s'.cell x = s.cell x := by
  obtain ⟨s1, e1, hd, hc⟩ := remove_spec l
  have l1 := remove_listed l hd fun x _ => (hc x).2
  have hq : q ∉ A ++ B := fun hm => ((mem_removed l.nodup).1 hm).2 rfl
  refine ⟨(s1.setN q none).setP q none, by simp [dropWeak, e1], l1.congr rfl ?_, ?_, ?_, ?_, ?_⟩
  · intro x hx
    have : x ≠ q := by rintro rfl; exact hq hx
    simp [St.setP, St.setN, this]
  · intro x
    by_cases hx : x = q <;> simp [St.setP, St.setN, hx, (hc _).1]
  · simp [St.setP, St.setN]
  · simp [St.setP, St.setN]
  · intro x hx
    simp only [List.mem_append, List.mem_cons, not_or] at hx
    have hA : A.getLast? ≠ some x := fun e => hx.1 (last_mem e)
    have hB : B.head? ≠ some x := fun e => hx.2.2 (head_mem e)
    have := hc x
    rw [if_neg hA, if_neg hB] at this
    simp only [St.setP, St.setN, hx.2.1, if_false]
    obtain ⟨a, b, c⟩ := this
    cases h1 : s1.cell x
    cases h2 : s.cell x
    simp [h1, h2] at a b c
    simp [a, b, c]

theorem loop_spec (M : Nat → Bool) (ev : Nat → Ptr) : ∀ (B A : List Nat) (prev : Option Nat) (s : St) (f : Nat), A ≠ [] →
    Listed s (A ++ (prev.toList ++ B)) → (∀ x ∈ B, (s.cell x).e = ev x ∧ (ev x).boxed = true) → B.length < f →
    ∃ s', weakLoop M f s prev B.head? = .ok s' ∧ Listed s' (A ++ B.filter fun x => kept M (ev x)) ∧
      (∀ x ∈ B, kept M (ev x) = false → s'.cell x = ⟨.null, none, none⟩) ∧
      (∀ x, (x ∈ B → kept M (ev x) = true) → (s'.cell x).e = (s.cell x).e) ∧
      (∀ q, prev = some q → (s'.cell q).p = none ∧ (s'.cell q).n = none) ∧
      ∀ x, x ∉ A ++ (prev.toList ++ B) → s'.cell x = s.cell x := by
  intro B
  induction B with
  | nil =>
    intro A prev s f hA l hv hf
    cases f with
    | zero => simp at hf
    | succ f =>
      simp only [List.head?_nil, weakLoop]
      cases prev with
      | none =>
        exact ⟨s, rfl, by simpa using l, by simp, by simp, by simp, by simp⟩
      | some q =>
        have l' : Listed s (A ++ q :: []) := by simpa using l
        obtain ⟨s', e, l1, v1, p1, n1, o1⟩ := dropWeak_spec l'
        refine ⟨s', e, by simpa using l1, by simp, fun x _ => v1 x, ?_, ?_⟩
        · rintro q' hq; cases hq; exact ⟨p1, n1⟩
        · intro x hx; exact o1 x (by simpa using hx)
  | cons w B ih =>
    intro A prev s f hA l hv hf
    cases f with
    | zero => simp at hf
    | succ f =>
      -- drop the previous one
      have hdrop : ∃ s1, dropPrev s prev = .ok s1 ∧ Listed s1 (A ++ w :: B) ∧ (∀ x, (s1.cell x).e = (s.cell x).e) ∧
          (∀ q, prev = some q → (s1.cell q).p = none ∧ (s1.cell q).n = none) ∧
          ∀ x, x ∉ A ++ (prev.toList ++ w :: B) → s1.cell x = s.cell x := by
        cases prev with
        | none => exact ⟨s, rfl, by simpa using l, fun _ => rfl, by simp, fun _ _ => rfl⟩
        | some q =>
          have l' : Listed s (A ++ q :: (w :: B)) := by simpa using l
          obtain ⟨s', e, l1, v1, p1, n1, o1⟩ := dropWeak_spec l'
          refine ⟨s', e, l1, v1, ?_, ?_⟩
          · rintro q' hq; cases hq; exact ⟨p1, n1⟩
          · intro x hx; exact o1 x (by simpa using hx)
      obtain ⟨s1, e1, l1, v1, p1, o1⟩ := hdrop
      have hnp : ∀ q, prev = some q → q ∉ A ++ w :: B := by
        rintro q rfl
        have := l.nodup
        simp only [Option.toList_some, List.singleton_append] at this
        intro hm
        exact ((mem_removed this).1 hm).2 rfl
      have hw := hv w (by simp)
      obtain ⟨a, ha⟩ := boxed_iff.1 hw.2
      have lw := l1.lk A w B rfl
      have hp : (s1.cell w).p ≠ none := by
        rw [lw.1]
        intro e
        exact hA (List.getLast?_eq_none_iff.1 e)
      have hget : wGet s1 w = .ref a := by
        simp only [wGet, v1, hw.1, ha]
        rw [if_pos hp]
      have hwB : w ∉ B := (List.nodup_cons.1 (List.nodup_append.1 l1.nodup).2.1).1
      have hwA : w ∉ A := fun hm => (List.nodup_append.1 l1.nodup).2.2 w hm w (by simp) rfl
      simp only [List.head?_cons, weakLoop, e1, Res.ok_bind]
      have hdead : deadRef M s1 w = ! M a := by simp [deadRef, hget]
      have hk : kept M (ev w) = M a := by rw [ha]; rfl
      rw [hdead]
      by_cases hM : M a = true
      · -- stays
        simp only [hM, Bool.not_true, Bool.false_eq_true, if_false]
        obtain ⟨s', e2, l2, d2, v2, _, o2⟩ := ih (A ++ [w]) none s1 f (by simp) (by simpa using l1)
          (fun x hx => ⟨(v1 x).trans (hv x (by simp [hx])).1, (hv x (by simp [hx])).2⟩) (by simpa using hf)
        rw [lw.2]
        refine ⟨s', e2, ?_, ?_, ?_, ?_, ?_⟩
        · rw [List.filter_cons, hk, hM]
          simpa using l2
        · intro x hx hkx
          rcases List.mem_cons.1 hx with rfl | hx
          · rw [hk, hM] at hkx; cases hkx
          · exact d2 x hx hkx
        · intro x hx
          rw [v2 x fun h => hx (by simp [h]), v1]
        · intro q hq
          have := hnp q hq
          rw [o2 q (by simpa using this)]
          exact p1 q hq
        · intro x hx
          rw [o2 x (by simp at hx ⊢; tauto), o1 x hx]
      · have hM : M a = false := by simpa using hM
        simp only [hM, Bool.not_false, if_true]
        have l1' : Listed (s1.setE w .null) (A ++ ([w] ++ B)) := (by simpa using l1 : Listed s1 (A ++ ([w] ++ B))).congr rfl (by
          intro x _
          by_cases hx : x = w <;> simp [St.setE, hx])
        obtain ⟨s', e2, l2, d2, v2, p2, o2⟩ := ih A (some w) (s1.setE w .null) f hA l1'
          (fun x hx => by
            have hxw : x ≠ w := by rintro rfl; exact hwB hx
            exact ⟨by simpa [St.setE, hxw] using (v1 x).trans (hv x (by simp [hx])).1, (hv x (by simp [hx])).2⟩) (by simpa using hf)
        have hn : ((s1.setE w .null).cell w).n = B.head? := by simp [St.setE, lw.2]
        rw [hn]
        have cw : s'.cell w = ⟨.null, none, none⟩ := by
          have := v2 w (fun h => absurd h hwB)
          have h2 := p2 w rfl
          simp [St.setE] at this
          cases hc : s'.cell w
          rw [hc] at this h2
          simp at this h2
          simp [this, h2]
        refine ⟨s', e2, ?_, ?_, ?_, ?_, ?_⟩
        · rw [List.filter_cons, hk, hM]
          simpa using l2
        · intro x hx hkx
          rcases List.mem_cons.1 hx with rfl | hx
          · exact cw
          · exact d2 x hx hkx
        · intro x hx
          have hxw : x ≠ w := by
            rintro rfl
            have := hx (by simp)
            rw [hk, hM] at this; cases this
          rw [v2 x fun h => hx (by simp [h])]
          simp [St.setE, hxw, v1]
        · intro q hq
          have := hnp q hq
          rw [o2 q (by simpa using this)]
          have hqw : q ≠ w := by rintro rfl; exact this (by simp)
          simpa [St.setE, hqw] using p1 q hq
        · intro x hx
          have hxw : x ≠ w := by rintro rfl; exact hx (by simp)
          rw [o2 x (by simp at hx ⊢; tauto)]
          simp only [St.setE, hxw, if_false]
          exact o1 x hx

/-- The pass: the first reference of the list stays whatever it refers to, the others stay if their node is marked and are
cleared otherwise. -/
theorem pass_spec (M : Nat → Bool) {s : St} {L : List Nat} (l : Listed s L) (hb : ∀ x ∈ L, (s.cell x).e.boxed = true) {f : Nat}
    (hf : L.length < f) :
    ∃ s', weakPass M f s = .ok s' ∧
      Listed s' (L.take 1 ++ (L.drop 1).filter fun x => kept M (s.cell x).e) ∧
      (∀ x ∈ L.drop 1, kept M (s.cell x).e = false → s'.cell x = ⟨.null, none, none⟩) ∧
      (∀ x, (x ∈ L.drop 1 → kept M (s.cell x).e = true) → (s'.cell x).e = (s.cell x).e) ∧
      ∀ x, x ∉ L → s'.cell x = s.cell x := by
  unfold weakPass
  rw [l.head]
  cases L with
  | nil =>
    cases f with
    | zero => simp at hf
    | succ f => exact ⟨s, rfl, by simpa using l, by simp, by simp, by simp⟩
  | cons h B =>
    cases f with
    | zero => simp at hf
    | succ f =>
      have lh := l.lk [] h B rfl
      have hg : deadRef M s h = false := by
        obtain ⟨a, ha⟩ := boxed_iff.1 (hb h (by simp))
        simp [deadRef, wGet, ha, lh.1]
      simp only [List.head?_cons, weakLoop, dropPrev, Res.ok_bind, hg, Bool.false_eq_true, if_false, lh.2]
      obtain ⟨s', e2, l2, d2, v2, _, o2⟩ := loop_spec M (fun x => (s.cell x).e) B [h] none s f (by simp) (by simpa using l)
        (fun x hx => ⟨rfl, hb x (by simp [hx])⟩) (by simpa using hf)
      exact ⟨s', e2, by simpa using l2, by simpa using d2, by simpa using v2, fun x hx => o2 x (by simpa using hx)⟩

/-! ## Histories -/

/-- The states reachable by a client that creates weak references to allocated nodes, destroys, copies and assigns them, while
nodes are allocated and collections (that mark the nodes `M`) free the others. `live` are the existing references, `valid` the
allocated nodes. The restriction: whenever a collection runs, the node of the first reference of the list is marked. -/
inductive Hist : St → (Nat → Bool) → (Nat → Bool) → Prop
  | init (cell : Nat → Node) : Hist ⟨cell, none⟩ (fun _ => false) (fun _ => false)
  | alloc {s live valid} (a : Nat) : Hist s live valid → Hist s live (fun x => x == a || valid x)
  | ctor {s s' live valid} {h : Nat} {e : Ptr} : Hist s live valid → live h = false → (∀ a, e = .ref a → valid a = true) →
      wCtor s h e = .ok s' → Hist s' (fun x => x == h || live x) valid
  | dtor {s s' live valid} {h : Nat} : Hist s live valid → live h = true → wDtor s h = .ok s' → Hist s' (fun x => x != h && live x) valid
  | copy {s s' live valid} {h k : Nat} : Hist s live valid → live h = false → live k = true → wCopy s h k = .ok s' →
      Hist s' (fun x => x == h || live x) valid
  | assign {s s' live valid} {h k : Nat} : Hist s live valid → live h = true → live k = true → wAssign s h k = .ok s' → Hist s' live valid
  | collect {s s' live valid} {M : Nat → Bool} {f : Nat} : Hist s live valid → (∀ h, s.head = some h → kept M (s.cell h).e = true) →
      weakPass M f s = .ok s' → Hist s' live (fun x => valid x && M x)

/-- The list holds the existing references to nodes. -/
structure WInv (s : St) (live valid : Nat → Bool) (L : List Nat) : Prop where
  listed : Listed s L
  mem : ∀ h, h ∈ L ↔ live h = true ∧ (s.cell h).e.boxed = true
  out : ∀ h, live h = true → h ∉ L → (s.cell h).p = none ∧ (s.cell h).n = none
  val : ∀ h a, live h = true → (s.cell h).e = .ref a → valid a = true

/-- As variables. -/
def vals (s : St) (live : Nat → Bool) : Vals := fun h => if live h then some (s.cell h).e else none

theorem WInv.inv {s live valid L} (w : WInv s live valid L) : Inv s (vals s live) L := by
  refine ⟨w.listed, ?_, ?_, ?_⟩
  · intro h
    rw [w.mem]
    cases hl : live h <;> simp [vals, hl, boxed_iff]
  · intro h e he
    cases hl : live h <;> simp [vals, hl] at he
    exact he
  · intro h e he
    cases hl : live h <;> simp [vals, hl] at he
    exact w.out h hl

theorem WInv.of_inv {s live valid L} {v : Vals} (i : Inv s v L) (hl : ∀ h, live h = (v h).isSome)
    (hv : ∀ h a, v h = some (.ref a) → valid a = true) : WInv s live valid L := by
  have some_of : ∀ h, live h = true → ∃ e, v h = some e := fun h e => by
    rw [hl] at e; exact Option.isSome_iff_exists.1 e
  refine ⟨i.listed, ?_, ?_, ?_⟩
  · intro h
    rw [i.mem]
    constructor
    · rintro ⟨a, ha⟩
      exact ⟨by rw [hl, ha]; rfl, by rw [i.val h _ ha]; rfl⟩
    · rintro ⟨h1, h2⟩
      obtain ⟨e, he⟩ := some_of h h1
      rw [i.val h e he] at h2
      obtain ⟨a, rfl⟩ := boxed_iff.1 h2
      exact ⟨a, he⟩
  · intro h h1 h2
    obtain ⟨e, he⟩ := some_of h h1
    exact i.out h e he h2
  · intro h a h1 h2
    obtain ⟨e, he⟩ := some_of h h1
    rw [i.val h e he] at h2
    subst h2
    exact hv h a he

theorem wGet_cases (s : St) (h : Nat) : wGet s h = (s.cell h).e ∨ wGet s h = .null := by
  unfold wGet
  split
  · exact .inl (by simp_all)
  · split
    · exact .inl rfl
    · exact .inr rfl

theorem wGet_ref {s : St} {h a : Nat} (e : wGet s h = .ref a) : (s.cell h).e = .ref a := by
  rcases wGet_cases s h with h' | h'
  · rw [← h', e]
  · rw [h'] at e; cases e

theorem wctor_winv {s live valid L} (w : WInv s live valid L) {h : Nat} (hl : live h = false) {e : Ptr} (he : ∀ a, e = .ref a → valid a = true) :
    ∃ s' L', kCtor s h e = .ok s' ∧ WInv s' (fun x => x == h || live x) valid L' := by
  obtain ⟨s', L', e1, i1⟩ := ctor_inv w.inv (h := h) (by simp [vals, hl]) e
  refine ⟨s', L', e1, .of_inv i1 ?_ ?_⟩
  · intro x
    by_cases hx : x = h
    · simp [hx]
    · cases hlx : live x <;> simp [hx, vals, hlx]
  · intro x a hx
    by_cases hxh : x = h
    · simp [hxh] at hx; exact he a hx
    · cases hlx : live x <;> simp [hxh, vals, hlx] at hx
      exact w.val x a hlx hx

theorem wassign_winv {s live valid L} (w : WInv s live valid L) {h k : Nat} (hl : live h = true) (hk : live k = true) :
    ∃ s' L', wAssign s h k = .ok s' ∧ WInv s' live valid L' := by
  unfold wAssign
  by_cases hhk : h = k
  · subst hhk
    simp only [if_true]
    exact ⟨s, L, rfl, w⟩
  · have hkh : ¬ k = h := fun e => hhk e.symm
    simp only [hhk, if_false]
    -- writing the value
    have fin : ∀ (s1 : St) (L1 : List Nat) (e : Ptr), Listed s1 L1 → (∀ x, x ≠ h → (s1.cell x).e = (s.cell x).e) → (s1.cell h).e = e →
        (∀ x, x ∈ L1 ↔ (x ∈ L ∧ x ≠ h) ∨ (x = h ∧ e.boxed = true)) → (∀ a, e = .ref a → valid a = true) →
        (∀ x, live x = true → x ∉ L1 → (s1.cell x).p = none ∧ (s1.cell x).n = none) → WInv s1 live valid L1 := by
      intro s1 L1 e l1 v1 v2 m1 he o1
      refine ⟨l1, ?_, o1, ?_⟩
      · intro x
        rw [m1, w.mem]
        by_cases hx : x = h
        · subst hx; simp [hl, v2]
        · simp [hx, v1 x hx]
      · intro x a hx hxa
        by_cases hxh : x = h
        · subst hxh; rw [v2] at hxa; exact he a hxa
        · rw [v1 x hxh] at hxa; exact w.val x a hx hxa
    have hval : ∀ a, wGet s k = .ref a → valid a = true := fun a e => w.val k a hk (wGet_ref e)
    by_cases ha : (s.cell h).e.boxed = true
    · have hhL : h ∈ L := (w.mem h).2 ⟨hl, ha⟩
      by_cases hg : (wGet s k).boxed = true
      · -- stays registered
        simp only [ha, hg, not_true_eq_false, and_false, if_false, Res.ok_bind, not_true, false_and]
        refine ⟨_, L, rfl, fin _ L (wGet s k) (w.listed.congr rfl ?_) ?_ ?_ ?_ hval ?_⟩
        · intro x _
          by_cases hx : x = h <;> simp [St.setE, hx]
        · intro x hx; simp [St.setE, hx]
        · simp [St.setE]
        · intro x
          by_cases hx : x = h
          · subst hx; simp [hhL, hg]
          · simp [hx]
        · intro x hx hxL
          have := w.out x hx hxL
          by_cases hxh : x = h <;> simpa [St.setE, hxh] using this
      · -- unregister
        obtain ⟨A, B, rfl⟩ := split_mem hhL
        obtain ⟨s1, e1, hd, hc⟩ := remove_spec w.listed
        have l1 := remove_listed w.listed hd fun x _ => (hc x).2
        have hnh : h ∉ A ++ B := fun hm => ((mem_removed w.listed.nodup).1 hm).2 rfl
        simp only [ha, hg, e1, Res.ok_bind, not_true_eq_false, false_and, if_false, Bool.false_eq_true, not_false_eq_true, and_self, if_true]
        -- the value read now is still not a node
        have hget : ∀ s2 : St, (s2.cell k).e = (s.cell k).e → ((s2.cell k).p ≠ none → (s.cell k).p ≠ none) → wGet s2 k = wGet s k ∨
            wGet s2 k = .null := by
          intro s2 e2 p2
          unfold wGet
          rw [e2]
          cases hke : (s.cell k).e with
          | null => simp
          | unboxed u => simp
          | ref a =>
            by_cases hp : (s2.cell k).p = none
            · right; simp [hp]
            · left; simp [hp, p2 hp]
        have hk2 : ∀ s2 : St, s2 = (s1.setP h none).setN h none → (wGet s2 k = wGet s k ∨ wGet s2 k = .null) := by
          rintro s2 rfl
          apply hget
          · simp [St.setP, St.setN, hkh, (hc k).1]
          · simp only [St.setP, St.setN, hkh, if_false, (hc k).2.1]
            by_cases hB : B.head? = some k
            · intro _
              have : k ∈ B := head_mem hB
              have hkL : k ∈ A ++ h :: B := by simp [this]
              obtain ⟨B', hB'⟩ : ∃ B', B = k :: B' := by
                cases B with
                | nil => simp at hB
                | cons b B => simp at hB; subst hB; exact ⟨B, rfl⟩
              have := w.listed.lk (A ++ [h]) k B' (by simp [hB'])
              rw [this.1]; simp
            · simp [hB]
        have hnb : (wGet ((s1.setP h none).setN h none) k).boxed = false := by
          rcases hk2 _ rfl with e | e
          · rw [e]; simpa using hg
          · rw [e]; rfl
        refine ⟨_, A ++ B, rfl, fin _ (A ++ B) _ (l1.congr rfl ?_) ?_ rfl ?_ ?_ ?_⟩
        · intro x hx
          have : x ≠ h := by rintro rfl; exact hnh hx
          simp [St.setE, St.setP, St.setN, this]
        · intro x hx
          simp [St.setE, St.setP, St.setN, hx, (hc x).1]
        · intro x
          rw [mem_removed w.listed.nodup]
          simp [St.setE, hnb]
        · intro a e
          have : ((((s1.setP h none).setN h none).setE h (wGet ((s1.setP h none).setN h none) k)).cell h).e = .ref a := e
          simp [St.setE] at this
          rw [this] at hnb
          cases hnb
        · intro x hx hxL
          by_cases hxh : x = h
          · subst hxh; simp [St.setE, St.setP, St.setN]
          · have hnot : x ∉ A ++ h :: B := fun hm => hxL ((mem_removed w.listed.nodup).2 ⟨hm, hxh⟩)
            have h0 := w.out x hx hnot
            have hA : A.getLast? ≠ some x := fun e => hxL (by simp [last_mem e])
            have hB : B.head? ≠ some x := fun e => hxL (by simp [head_mem e])
            have h2 := hc x
            rw [if_neg hA, if_neg hB] at h2
            simp only [St.setE, St.setP, St.setN, hxh, if_false]
            rw [h2.2.1, h2.2.2]
            exact h0
    · have hhL : h ∉ L := fun hm => ha ((w.mem h).1 hm).2
      have ho := w.out h hl hhL
      simp only [ha, false_and, if_false, Res.ok_bind, Bool.false_eq_true, not_false_eq_true, true_and]
      have l0 : Listed (s.setE h (wGet s k)) L := w.listed.congr rfl (by
        intro x _
        by_cases hx : x = h <;> simp [St.setE, hx])
      have e0 : ((s.setE h (wGet s k)).cell h).e = wGet s k := by simp [St.setE]
      rw [e0]
      by_cases hg : (wGet s k).boxed = true
      · rw [if_pos hg]
        obtain ⟨s2, e2, l2, v2, o2⟩ := add_spec l0 hhL (by simpa [St.setE] using ho.1) (by simpa [St.setE] using ho.2)
        refine ⟨s2, h :: L, e2, fin s2 _ (wGet s k) l2 ?_ ?_ ?_ hval ?_⟩
        · intro x hx; rw [v2]; simp [St.setE, hx]
        · rw [v2, e0]
        · intro x
          by_cases hx : x = h
          · subst hx; simp [hg]
          · simp [hx]
        · intro x hx hxL
          rw [o2 x hxL]
          simp only [List.mem_cons, not_or] at hxL
          simpa [St.setE, hxL.1] using w.out x hx hxL.2
      · rw [if_neg hg]
        refine ⟨_, L, rfl, fin _ L _ l0 ?_ e0 ?_ hval ?_⟩
        · intro x hx; simp [St.setE, hx]
        · intro x
          by_cases hx : x = h
          · subst hx; simp [hhL, hg]
          · simp [hx]
        · intro x hx hxL
          have := w.out x hx hxL
          by_cases hxh : x = h <;> simpa [St.setE, hxh] using this

theorem wdtor_winv {s live valid L} (w : WInv s live valid L) {h : Nat} (hl : live h = true) :
    ∃ s' L', kDtor s h = .ok s' ∧ WInv s' (fun x => x != h && live x) valid L' := by
  have hs : specStep (vals s live) (.dtor h) = some fun x => if x = h then none else vals s live x := by
    simp [specStep, vals, hl]
  obtain ⟨s', L', e1, i1⟩ := step_inv w.inv (.dtor h) hs
  refine ⟨s', L', e1, .of_inv i1 ?_ ?_⟩
  · intro x
    by_cases hx : x = h
    · simp [hx]
    · cases hlx : live x <;> simp [hx, vals, hlx]
  · intro x a hx
    by_cases hxh : x = h
    · simp [hxh] at hx
    · cases hlx : live x <;> simp [hxh, vals, hlx] at hx
      exact w.val x a hlx hx

theorem collect_winv {s live valid L} (w : WInv s live valid L) {M : Nat → Bool} (hh : ∀ h, s.head = some h → kept M (s.cell h).e = true)
    {f : Nat} (hf : L.length < f) :
    ∃ s' L', weakPass M f s = .ok s' ∧ WInv s' live (fun x => valid x && M x) L' ∧
      ∀ x, live x = true → (s'.cell x).e = if kept M (s.cell x).e then (s.cell x).e else .null := by
  obtain ⟨s', e, l, d, v, o⟩ := pass_spec M w.listed (fun x hx => ((w.mem x).1 hx).2) hf
  have hd : ∀ x ∈ L, x ∉ L.drop 1 → kept M (s.cell x).e = true := by
    intro x hx hx1
    cases L with
    | nil => simp at hx
    | cons b B =>
      simp at hx hx1
      rcases hx with rfl | hx
      · exact hh x (by rw [w.listed.head]; rfl)
      · exact absurd hx hx1
  have he : ∀ x, live x = true → (s'.cell x).e = if kept M (s.cell x).e then (s.cell x).e else .null := by
    intro x hx
    by_cases hk : kept M (s.cell x).e = true
    · rw [if_pos hk, v x fun _ => hk]
    · rw [if_neg hk]
      have hb : (s.cell x).e.boxed = true := by
        cases hc : (s.cell x).e <;> simp [hc, kept] at hk
        rfl
      have hxL := (w.mem x).2 ⟨hx, hb⟩
      by_cases hx1 : x ∈ L.drop 1
      · rw [d x hx1 (by simpa using hk)]
      · exact absurd (hd x hxL hx1) hk
  have hm : ∀ x, x ∈ (L.take 1 ++ (L.drop 1).filter fun x => kept M (s.cell x).e) ↔ x ∈ L ∧ kept M (s.cell x).e = true := by
    intro x
    have hL : x ∈ L ↔ x ∈ L.take 1 ∨ x ∈ L.drop 1 := by
      conv_lhs => rw [← List.take_append_drop 1 L]
      exact List.mem_append
    have ht : x ∈ L.take 1 → kept M (s.cell x).e = true := by
      intro hx
      cases L with
      | nil => simp at hx
      | cons b B =>
        simp at hx
        subst hx
        exact hh x (by rw [w.listed.head]; rfl)
    rw [List.mem_append, List.mem_filter, hL]
    tauto
  refine ⟨s', _, e, ⟨l, ?_, ?_, ?_⟩, he⟩
  · intro x
    rw [hm, w.mem]
    constructor
    · rintro ⟨⟨h1, h2⟩, h3⟩
      refine ⟨h1, ?_⟩
      rw [he x h1, if_pos h3]; exact h2
    · rintro ⟨h1, h2⟩
      rw [he x h1] at h2
      split at h2
      · exact ⟨⟨h1, h2⟩, ‹_›⟩
      · cases h2
  · intro x hx hxL
    rw [hm] at hxL
    by_cases hxin : x ∈ L
    · have hk : kept M (s.cell x).e = false := by
        cases hc : kept M (s.cell x).e
        · rfl
        · exact absurd ⟨hxin, hc⟩ hxL
      by_cases hx1 : x ∈ L.drop 1
      · rw [d x hx1 hk]; simp
      · rw [hd x hxin hx1] at hk; cases hk
    · rw [o x hxin]
      exact w.out x hx hxin
  · intro x a hx ha
    rw [he x hx] at ha
    split at ha
    · rename_i hk
      rw [ha] at hk
      have := w.val x a hx ha
      simp [this]
      simpa [kept] using hk
    · cases ha

theorem hist_winv {s live valid} (h : Hist s live valid) : ∃ L, WInv s live valid L := by
  have det : ∀ {s1 s2 : St} {r : Res St}, r = .ok s1 → r = .ok s2 → s1 = s2 := by
    rintro s1 s2 r rfl h; cases h; rfl
  induction h with
  | init cell =>
    exact ⟨[], ⟨List.nodup_nil, rfl, by intro A h B e; simp at e⟩, by simp, by simp, by simp⟩
  | alloc a _ ih =>
    obtain ⟨L, w⟩ := ih
    exact ⟨L, w.listed, w.mem, w.out, fun h b h1 h2 => by simp [w.val h b h1 h2]⟩
  | ctor _ hl he e ih =>
    obtain ⟨L, w⟩ := ih
    obtain ⟨s', L', e1, w1⟩ := wctor_winv w hl he
    cases det e e1
    exact ⟨L', w1⟩
  | dtor _ hl e ih =>
    obtain ⟨L, w⟩ := ih
    obtain ⟨s', L', e1, w1⟩ := wdtor_winv w hl
    cases det e e1
    exact ⟨L', w1⟩
  | @copy s s' live valid h k _ hl hk e ih =>
    obtain ⟨L, w⟩ := ih
    obtain ⟨s', L', e1, w1⟩ := wctor_winv w hl (e := wGet s k) fun a ha => w.val k a hk (wGet_ref ha)
    cases det e e1
    exact ⟨L', w1⟩
  | assign _ hl hk e ih =>
    obtain ⟨L, w⟩ := ih
    obtain ⟨s', L', e1, w1⟩ := wassign_winv w hl hk
    cases det e e1
    exact ⟨L', w1⟩
  | @collect s s' live valid M f _ hh e ih =>
    obtain ⟨L, w⟩ := ih
    have mono : ∀ (f : Nat) (s : St) (prev cur : Option Nat) (s' : St), weakLoop M f s prev cur = .ok s' →
        weakLoop M (f + (L.length + 1)) s prev cur = .ok s' := by
      intro f
      induction f with
      | zero => intro s prev cur s' h; simp [weakLoop] at h
      | succ f ih =>
        intro s prev cur s' h
        rw [Nat.add_right_comm]
        cases cur with
        | none => simpa [weakLoop] using h
        | some c =>
          simp only [weakLoop] at h ⊢
          obtain ⟨s1, h1, h2⟩ := (Res.bind_eq_ok).1 h
          rw [h1]
          simp only [Res.ok_bind]
          split at h2
          · rename_i hd
            rw [if_pos hd]; exact ih _ _ _ _ h2
          · rename_i hd
            rw [if_neg hd]; exact ih _ _ _ _ h2
    obtain ⟨s2, L', e1, w1, _⟩ := collect_winv w hh (f := f + (L.length + 1)) (by omega)
    cases det (mono f _ _ _ _ e) e1
    exact ⟨L', w1⟩

/-- **C30** (partial: only if the first weak reference of the list refers to a marked node whenever a collection runs; see
`C30_weakref_dangles` for what happens otherwise). In every history, a weak reference never yields a node that has been freed. -/
theorem _root_.MZ.C30_weakref_partial {s live valid} (h : Hist s live valid) {r a : Nat} (hr : live r = true) (hg : wGet s r = .ref a) :
    valid a = true := by
  obtain ⟨L, w⟩ := hist_winv h
  exact w.val r a hr (wGet_ref hg)

/-- **C30**. In every such history every operation succeeds: no assertion fails, no pointer that is not one of a reference is
followed, and the pass over the list ends. A reference to a node that is not marked is cleared by the pass, any other keeps its
value. -/
theorem _root_.MZ.C30_weakref_progress {s live valid} (h : Hist s live valid) :
    (∀ r e, live r = false → (∀ a, e = .ref a → valid a = true) → ∃ s', wCtor s r e = .ok s') ∧
    (∀ r, live r = true → ∃ s', wDtor s r = .ok s') ∧
    (∀ r k, live r = false → live k = true → ∃ s', wCopy s r k = .ok s') ∧
    (∀ r k, live r = true → live k = true → ∃ s', wAssign s r k = .ok s') ∧
    ∀ M, (∀ h, s.head = some h → kept M (s.cell h).e = true) → ∃ n, ∀ f, n ≤ f → ∃ s', weakPass M f s = .ok s' ∧
      ∀ x, live x = true → (s'.cell x).e = if kept M (s.cell x).e then (s.cell x).e else .null := by
  obtain ⟨L, w⟩ := hist_winv h
  refine ⟨?_, ?_, ?_, ?_, ?_⟩
  · intro r e h1 h2
    obtain ⟨s', _, e1, _⟩ := wctor_winv w h1 h2
    exact ⟨s', e1⟩
  · intro r h1
    obtain ⟨s', _, e1, _⟩ := wdtor_winv w h1
    exact ⟨s', e1⟩
  · intro r k h1 h2
    obtain ⟨s', _, e1, _⟩ := wctor_winv w h1 (e := wGet s k) fun a ha => w.val k a h2 (wGet_ref ha)
    exact ⟨s', e1⟩
  · intro r k h1 h2
    obtain ⟨s', _, e1, _⟩ := wassign_winv w h1 h2
    exact ⟨s', e1⟩
  · intro M hh
    refine ⟨L.length + 1, fun f hf => ?_⟩
    obtain ⟨s', _, e1, _, v⟩ := collect_winv w hh (f := f) (by omega)
    exact ⟨s', e1, v⟩

/-- **C30**. The values: a reference that is not the first of the list yields its node; the first one, which is always the one
created or assigned last, yields null although its node is alive. -/
theorem _root_.MZ.C30_weakref_get {s live valid} (h : Hist s live valid) {r a : Nat} (hr : live r = true) (he : (s.cell r).e = .ref a) :
    wGet s r = if s.head = some r then .null else .ref a := by
  obtain ⟨L, w⟩ := hist_winv h
  obtain ⟨A, B, rfl⟩ := split_mem ((w.mem r).2 ⟨hr, by rw [he]; rfl⟩)
  have lk := w.listed.lk A r B rfl
  simp only [wGet, he]
  rw [lk.1, w.listed.head]
  cases A with
  | nil => simp
  | cons b A =>
    have hb : ¬ b = r := by
      rintro rfl
      have := w.listed.nodup
      simp at this
    simp [List.getLast?_cons, hb]

/-- The empty list of references. -/
def s0 : St := ⟨fun _ => ⟨.null, none, none⟩, none⟩

/-- The full property fails. A weak reference that has just been created for node 7 yields null. When the node is freed it is not
cleared, and as soon as another reference is created it yields the freed node. -/
theorem _root_.MZ.C30_weakref_dangles :
    ∃ s1 s2 s3, wCtor s0 1 (.ref 7) = .ok s1 ∧ wGet s1 1 = .null ∧
      weakPass (fun _ => false) 5 s1 = .ok s2 ∧ wCtor s2 2 (.ref 8) = .ok s3 ∧ wGet s3 1 = .ref 7 :=
  ⟨_, _, _, rfl, rfl, rfl, rfl, rfl⟩

/-- Non-vacuity of the histories: three references, the node of the second is freed. -/
example : ∃ s live valid, Hist s live valid ∧ live 1 = true ∧ live 2 = true ∧ wGet s 1 = .ref 7 ∧ wGet s 2 = .null ∧ s.head = some 3 := by
  have h0 := Hist.alloc 9 (Hist.alloc 8 (Hist.alloc 7 (Hist.init fun _ => ⟨.null, none, none⟩)))
  have h1 := Hist.ctor (h := 1) (e := .ref 7) h0 rfl (by intro a e; cases e; rfl) rfl
  have h2 := Hist.ctor (h := 2) (e := .ref 8) h1 rfl (by intro a e; cases e; rfl) rfl
  have h3 := Hist.ctor (h := 3) (e := .ref 9) h2 rfl (by intro a e; cases e; rfl) rfl
  have h4 := Hist.collect (M := fun a => a != 8) (f := 5) h3 (by intro h e; cases e; rfl) rfl
  exact ⟨_, _, _, h4, rfl, rfl, rfl, rfl, rfl⟩

end GCHandle
end MZ
