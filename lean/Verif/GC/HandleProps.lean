import Verif.GC.HandleLemmas
/-!
# C30: `KeepAlive` handles
-/
namespace MZ
namespace GCHandle

theorem move_spec {s : St} {A B : List Nat} {h k : Nat} (l : Listed s (A ++ k :: B)) (hh : h ∉ A ++ k :: B)
    (he : (s.cell k).e.boxed = true) :
    ∃ s', kMove s h k = .ok s' ∧ Listed s' (A ++ h :: B) ∧ (s'.cell h).e = (s.cell k).e ∧ s'.cell k = ⟨.null, none, none⟩ ∧
      (∀ x, x ≠ h → x ≠ k → (s'.cell x).e = (s.cell x).e) ∧ ∀ x, x ≠ h → x ∉ A ++ k :: B → s'.cell x = s.cell x := by
  have hk := l.lk A k B rfl
  have nd := l.nodup
  simp only [List.mem_append, List.mem_cons, not_or] at hh
  obtain ⟨hhA, hhk, hhB⟩ := hh
  have dis : ∀ x ∈ A, x ∉ B := fun x hA hB => (List.nodup_append.1 nd).2.2 x hA x (by simp [hB]) rfl
  have hkA : k ∉ A := fun hm => (List.nodup_append.1 nd).2.2 k hm k (by simp) rfl
  have hkB : k ∉ B := (List.nodup_cons.1 (List.nodup_append.1 nd).2.1).1
  have eh : ((s.put h (s.cell k)).cell h) = s.cell k := by simp [St.put]
  -- the cells after the operation
  have key : ∃ s', kMove s h k = .ok s' ∧ s'.head = (A ++ h :: B).head? ∧ s'.cell k = ⟨.null, none, none⟩ ∧
      ∀ x, x ≠ k → s'.cell x = if x = h then s.cell k else
        { s.cell x with p := (if B.head? = some x then some h else (s.cell x).p),
                        n := (if A.getLast? = some x then some h else (s.cell x).n) } := by
    refine ⟨_, rfl, ?_, ?_, ?_⟩
    · simp only [kMove, eh, he, if_true, relocate, hk.1]
      cases hl : A.getLast? with
      | none =>
        have : A = [] := List.getLast?_eq_none_iff.1 hl
        subst this
        simp [St.put, setPO_head]
      | some q =>
        have hAne : A ≠ [] := by rintro rfl; simp at hl
        simp only [St.put, setPO_head, St.setN, l.head]
        cases A with
        | nil => simp at hAne
        | cons a A => simp
    · simp [kMove, St.put]
    · intro x hx
      simp only [kMove, eh, he, if_true, relocate, hk.1]
      simp only [St.put, hx, if_false]
      cases hl : A.getLast? with
      | none =>
        simp only [setPO_cell, if_true, hk.2]
        by_cases hxh : x = h
        · subst hxh
          have : B.head? ≠ some x := fun e => hhB (head_mem e)
          simp [this]
        · by_cases hb : B.head? = some x <;> simp [hb, hxh]
      | some q =>
        have hq : q ∈ A := last_mem hl
        have hqh : h ≠ q := fun e => hhA (e ▸ hq)
        simp only [setPO_cell, St.setN, if_true, hqh, if_false, hk.2]
        have qx : some q = some x ↔ x = q := by
          constructor
          · intro e; exact (Option.some.inj e).symm
          · rintro rfl; rfl
        by_cases hxh : x = h
        · subst hxh
          have : B.head? ≠ some x := fun e => hhB (head_mem e)
          simp [this, hqh]
        · by_cases hb : B.head? = some x <;> by_cases hq2 : x = q <;> simp [hb, hxh, hq2, qx]
          · subst hq2; exact absurd (head_mem hb) (dis x hq)
          · subst hq2; simp [hb, hxh]
  obtain ⟨s', e', hd, ck, cx⟩ := key
  refine ⟨s', e', ⟨?_, hd, ?_⟩, ?_, ck, ?_, ?_⟩
  · rw [List.nodup_append] at nd ⊢
    refine ⟨nd.1, List.nodup_cons.2 ⟨hhB, (List.nodup_cons.1 nd.2.1).2⟩, ?_⟩
    intro a ha b hb
    rcases List.mem_cons.1 hb with rfl | hb
    · rintro rfl; exact hhA ha
    · rintro rfl; exact dis a ha hb
  · intro A' x B' e
    rcases List.append_eq_append_iff.1 e with ⟨C, h1, h2⟩ | ⟨C, h1, h2⟩
    · cases C with
      | nil =>
        simp at h1 h2
        obtain ⟨rfl, rfl⟩ := h2
        subst h1
        rw [cx _ hhk, if_pos rfl]
        exact hk
      | cons c C =>
        simp at h2
        obtain ⟨rfl, rfl⟩ := h2
        subst h1
        have hxB : x ∈ C ++ x :: B' := by simp
        have hxk : x ≠ k := by rintro rfl; exact hkB hxB
        have hxh : x ≠ h := by rintro rfl; exact hhB hxB
        have hxA : A.getLast? ≠ some x := fun e => dis x (last_mem e) hxB
        have old := l.lk (A ++ k :: C) x B' (by simp)
        rw [cx _ hxk, if_neg hxh]
        simp only [hxA, if_false, old.2, and_true]
        cases C with
        | nil => simp
        | cons c C =>
          have : ¬ c = x := by
            rintro rfl
            have := (List.nodup_cons.1 (List.nodup_append.1 nd).2.1).2
            simp at this
          simp [this, old.1, List.getLast?_append, List.getLast?_cons]
    · cases C with
      | nil =>
        simp at h1 h2
        obtain ⟨rfl, rfl⟩ := h2
        subst h1
        rw [cx _ hhk, if_pos rfl]
        exact hk
      | cons c C =>
        simp at h2
        obtain ⟨rfl, rfl⟩ := h2
        subst h1
        have hxA : x ∈ A' ++ x :: C := by simp
        have hxk : x ≠ k := by rintro rfl; exact hkA hxA
        have hxh : x ≠ h := by rintro rfl; exact hhA hxA
        have hxB : B.head? ≠ some x := fun e => dis x hxA (head_mem e)
        have old := l.lk A' x (C ++ k :: B) (by simp)
        rw [cx _ hxk, if_neg hxh]
        simp only [hxB, if_false, old.1, true_and]
        cases C with
        | nil => simp
        | cons c C =>
          have : (A' ++ x :: c :: C).getLast? ≠ some x := by
            intro e
            have e' : (c :: C).getLast? = some x := by
              simpa [List.getLast?_append, List.getLast?_cons] using e
            have hm : x ∈ c :: C := last_mem e'
            have := (List.nodup_append.1 nd).1
            have := (List.nodup_append.1 this).2.1
            rw [List.nodup_cons] at this
            exact this.1 hm
          rw [if_neg this, old.2]
          simp
  · rw [cx _ hhk, if_pos rfl]
  · intro x h1 h2
    rw [cx _ h2, if_neg h1]
  · intro x h1 h2
    simp only [List.mem_append, List.mem_cons, not_or] at h2
    have a : A.getLast? ≠ some x := fun e => h2.1 (last_mem e)
    have b : B.head? ≠ some x := fun e => h2.2.2 (head_mem e)
    rw [cx _ h2.2.1, if_neg h1]
    simp [a, b]

/-- The handles `v` are the contents of the memory `s`, and `L` are those that are registered. -/
structure Inv (s : St) (v : Vals) (L : List Nat) : Prop where
  listed : Listed s L
  mem : ∀ h, h ∈ L ↔ ∃ a, v h = some (.ref a)
  val : ∀ h e, v h = some e → (s.cell h).e = e
  out : ∀ h e, v h = some e → h ∉ L → (s.cell h).p = none ∧ (s.cell h).n = none

theorem boxed_iff {e : Ptr} : e.boxed = true ↔ ∃ a, e = .ref a := by
  cases e <;> simp [Ptr.boxed]

theorem ctor_inv {s : St} {v : Vals} {L : List Nat} (i : Inv s v L) {h : Nat} (hv : v h = none) (e : Ptr) :
    ∃ s' L', kCtor s h e = .ok s' ∧ Inv s' (fun x => if x = h then some e else v x) L' := by
  have hL : h ∉ L := fun hm => by obtain ⟨a, ha⟩ := (i.mem h).1 hm; rw [hv] at ha; cases ha
  have l' : Listed (s.put h ⟨e, none, none⟩) L := i.listed.congr rfl (by
    intro x hx
    have : x ≠ h := by rintro rfl; exact hL hx
    simp [St.put, this])
  unfold kCtor
  by_cases hb : e.boxed = true
  · simp only [hb, if_true]
    obtain ⟨s', e1, l1, v1, o1⟩ := add_spec l' hL (by simp [St.put]) (by simp [St.put])
    obtain ⟨a, rfl⟩ := boxed_iff.1 hb
    refine ⟨s', h :: L, e1, l1, ?_, ?_, ?_⟩
    · intro x
      by_cases hx : x = h
      · simp [hx]
      · simp [hx, i.mem]
    · intro x w hw
      rw [v1]
      by_cases hx : x = h
      · subst hx; simpa [St.put] using hw
      · simp only [hx, if_false] at hw
        simpa [St.put, hx] using i.val x w hw
    · intro x w hw hx
      rw [o1 x hx]
      simp only [List.mem_cons, not_or] at hx
      simp only [hx.1, if_false] at hw
      simpa [St.put, hx.1] using i.out x w hw hx.2
  · simp only [hb]
    refine ⟨_, L, rfl, l', ?_, ?_, ?_⟩
    · intro x
      by_cases hx : x = h
      · subst hx
        simp only [if_true, Option.some.injEq]
        exact ⟨fun hm => absurd hm hL, fun hm => absurd (boxed_iff.2 hm) hb⟩
      · simp [hx, i.mem]
    · intro x w hw
      by_cases hx : x = h
      · subst hx; simpa [St.put] using hw
      · simp only [hx, if_false] at hw
        simpa [St.put, hx] using i.val x w hw
    · intro x w hw hxL
      by_cases hx : x = h
      · subst hx; simp [St.put]
      · simp only [hx, if_false] at hw
        simpa [St.put, hx] using i.out x w hw hxL

theorem split_mem {L : List Nat} {h : Nat} (hm : h ∈ L) : ∃ A B, L = A ++ h :: B := List.append_of_mem hm

theorem mem_removed {A B : List Nat} {h x : Nat} (nd : (A ++ h :: B).Nodup) : x ∈ A ++ B ↔ x ∈ A ++ h :: B ∧ x ≠ h := by
  have hA : h ∉ A := fun hm => (List.nodup_append.1 nd).2.2 h hm h (by simp) rfl
  have hB : h ∉ B := (List.nodup_cons.1 (List.nodup_append.1 nd).2.1).1
  constructor
  · intro hx
    refine ⟨by simp at hx ⊢; tauto, ?_⟩
    rintro rfl
    rcases List.mem_append.1 hx with h | h
    · exact hA h
    · exact hB h
  · rintro ⟨hx, hne⟩
    simp at hx ⊢
    tauto

theorem step_inv {s : St} {v v' : Vals} {L : List Nat} (i : Inv s v L) (o : Op) (hs : specStep v o = some v') :
    ∃ s' L', kStep s o = .ok s' ∧ Inv s' v' L' := by
  cases o with
  | ctor h e =>
    simp only [specStep] at hs
    split at hs
    · cases hs
      exact ctor_inv i ‹_› e
    · cases hs
  | copy h k =>
    simp only [specStep] at hs
    split at hs
    · rename_i w hvh hvk
      cases hs
      have := ctor_inv i hvh w
      simpa [kStep, kCopy, i.val k w hvk] using this
    · cases hs
  | dtor h =>
    simp only [specStep] at hs
    split at hs
    · cases hs
    · rename_i hvh
      cases hs
      obtain ⟨w, hw⟩ := Option.ne_none_iff_exists'.1 hvh
      simp only [kStep, kDtor, i.val h w hw]
      by_cases hb : w.boxed = true
      · simp only [hb, if_true]
        obtain ⟨a, rfl⟩ := boxed_iff.1 hb
        obtain ⟨A, B, rfl⟩ := split_mem ((i.mem h).2 ⟨a, hw⟩)
        obtain ⟨s', e1, hd, hc⟩ := remove_spec i.listed
        have l1 := remove_listed i.listed hd fun x _ => (hc x).2
        refine ⟨s', A ++ B, e1, l1, ?_, ?_, ?_⟩
        · intro x
          rw [mem_removed i.listed.nodup, i.mem]
          by_cases hx : x = h <;> simp [hx]
        · intro x u hu
          by_cases hx : x = h
          · simp [hx] at hu
          · simp only [hx, if_false] at hu
            rw [(hc x).1, i.val x u hu]
        · intro x u hu hxL
          by_cases hx : x = h
          · simp [hx] at hu
          · simp only [hx, if_false] at hu
            have hnot : x ∉ A ++ h :: B := fun hm => hxL ((mem_removed i.listed.nodup).2 ⟨hm, hx⟩)
            have := i.out x u hu hnot
            have hA : A.getLast? ≠ some x := fun e => hxL (by simp [last_mem e])
            have hB : B.head? ≠ some x := fun e => hxL (by simp [head_mem e])
            rw [(hc x).2.1, (hc x).2.2, if_neg hA, if_neg hB]
            exact this
      · simp only [hb]
        refine ⟨s, L, rfl, i.listed, ?_, ?_, ?_⟩
        · intro x
          by_cases hx : x = h
          · subst hx
            simp only [if_true]
            constructor
            · intro hm
              obtain ⟨a, ha⟩ := (i.mem x).1 hm
              rw [hw] at ha
              exact absurd (boxed_iff.2 ⟨a, Option.some.inj ha⟩) hb
            · rintro ⟨a, ha⟩; cases ha
          · simp [hx, i.mem]
        · intro x u hu
          by_cases hx : x = h
          · simp [hx] at hu
          · simp only [hx, if_false] at hu; exact i.val x u hu
        · intro x u hu
          by_cases hx : x = h
          · simp [hx] at hu
          · simp only [hx, if_false] at hu; exact i.out x u hu
  | move h k =>
    simp only [specStep] at hs
    split at hs
    · rename_i w hvh hvk
      cases hs
      have hkh : k ≠ h := by rintro rfl; rw [hvh] at hvk; cases hvk
      have hhL : h ∉ L := fun hm => by obtain ⟨a, ha⟩ := (i.mem h).1 hm; rw [hvh] at ha; cases ha
      have ek := i.val k w hvk
      simp only [kStep]
      by_cases hb : w.boxed = true
      · obtain ⟨a, rfl⟩ := boxed_iff.1 hb
        obtain ⟨A, B, rfl⟩ := split_mem ((i.mem k).2 ⟨a, hvk⟩)
        obtain ⟨s', e1, l1, v1, k1, v2, o1⟩ := move_spec i.listed hhL (by rw [ek]; rfl)
        refine ⟨s', A ++ h :: B, e1, l1, ?_, ?_, ?_⟩
        · intro x
          have key : x ∈ A ++ h :: B ↔ x = h ∨ (x ∈ A ++ k :: B ∧ x ≠ k) := by
            rw [← mem_removed i.listed.nodup]
            simp; tauto
          rw [key, i.mem]
          by_cases hx : x = h
          · simp [hx]
          · by_cases hx2 : x = k <;> simp [hx, hx2, hkh]
        · intro x u hu
          by_cases hx : x = h
          · subst hx
            simp at hu
            rw [v1, ek, hu]
          · by_cases hx2 : x = k
            · subst hx2
              simp [hx] at hu
              rw [k1, hu]
            · simp only [hx, hx2, if_false] at hu
              rw [v2 x hx hx2]
              exact i.val x u hu
        · intro x u hu hxL
          by_cases hx : x = h
          · subst hx; exact absurd (by simp) hxL
          · by_cases hx2 : x = k
            · subst hx2; rw [k1]; simp
            · simp only [hx, hx2, if_false] at hu
              have hnot : x ∉ A ++ k :: B := by
                simp only [List.mem_append, List.mem_cons, not_or] at hxL ⊢
                exact ⟨hxL.1, hx2, hxL.2.2⟩
              rw [o1 x hx hnot]
              exact i.out x u hu hnot
      · have hkL : k ∉ L := fun hm => by
          obtain ⟨a, ha⟩ := (i.mem k).1 hm
          rw [hvk] at ha
          exact hb (boxed_iff.2 ⟨a, Option.some.inj ha⟩)
        have eh : ((s.put h (s.cell k)).cell h) = s.cell k := by simp [St.put]
        refine ⟨_, L, rfl, ?_, ?_, ?_, ?_⟩
        · simp only [eh, ek, hb]
          refine i.listed.congr rfl ?_
          intro x hx
          have h1 : x ≠ h := by rintro rfl; exact hhL hx
          have h2 : x ≠ k := by rintro rfl; exact hkL hx
          simp [St.put, h1, h2]
        · intro x
          by_cases hx : x = h
          · subst hx
            simp only [if_true, Option.some.injEq]
            exact ⟨fun hm => absurd hm hhL, fun hm => absurd (boxed_iff.2 hm) hb⟩
          · by_cases hx2 : x = k
            · subst hx2; simp [hx, hkL]
            · simp [hx, hx2, i.mem]
        · intro x u hu
          simp only [eh, ek, hb]
          by_cases hx : x = h
          · subst hx
            have : x ≠ k := fun e => hkh e.symm
            simp at hu
            simp [St.put, this, ek, hu]
          · by_cases hx2 : x = k
            · subst hx2
              simp [hx] at hu
              simp [St.put, hu]
            · simp only [hx, hx2, if_false] at hu
              simpa [St.put, hx, hx2] using i.val x u hu
        · intro x u hu hxL
          simp only [eh, ek, hb]
          by_cases hx : x = h
          · subst hx
            have : x ≠ k := fun e => hkh e.symm
            simpa [St.put, this] using i.out k w hvk hkL
          · by_cases hx2 : x = k
            · subst hx2; simp [St.put]
            · simp only [hx, hx2, if_false] at hu
              simpa [St.put, hx, hx2] using i.out x u hu hxL
    · cases hs
  | assign h k =>
    simp only [specStep] at hs
    split at hs
    · rename_i u w hvh hvk
      cases hs
      simp only [kStep, kAssign]
      by_cases hkk : h = k
      · subst hkk
        rw [hvh] at hvk
        cases hvk
        simp only [if_true]
        refine ⟨s, L, rfl, i.listed, ?_, ?_, ?_⟩
        · intro x; rw [i.mem]
          by_cases hx : x = h
          · subst hx; simp [hvh]
          · simp [hx]
        · intro x y hy
          by_cases hx : x = h
          · subst hx; simp at hy; rw [i.val x _ hvh, hy]
          · simp only [hx, if_false] at hy; exact i.val x y hy
        · intro x y hy
          by_cases hx : x = h
          · subst hx; exact i.out x _ hvh
          · simp only [hx, if_false] at hy; exact i.out x y hy
      · have eh := i.val h u hvh
        have ek := i.val k w hvk
        have hkh : ¬ k = h := fun e => hkk e.symm
        rw [if_neg hkk, eh, ek]
        -- finishing: writing the value
        have fin : ∀ (s1 : St) (L1 : List Nat), Listed s1 L1 → (∀ x, (s1.cell x).e = (s.cell x).e) →
            (∀ x, x ∈ L1 ↔ ∃ a, (if x = h then some w else v x) = some (Ptr.ref a)) →
            (∀ x y, v x = some y → x ∉ L1 → (s1.cell x).p = none ∧ (s1.cell x).n = none) →
            ∃ s' L', (Res.ok (s1.setE h (s1.cell k).e) : Res St) = .ok s' ∧ Inv s' (fun x => if x = h then some w else v x) L' := by
          intro s1 L1 l1 v1 m1 o1
          refine ⟨_, L1, rfl, l1.congr rfl ?_, m1, ?_, ?_⟩
          · intro x _
            by_cases hx : x = h <;> simp [St.setE, hx]
          · intro x y hy
            by_cases hx : x = h
            · subst hx; simp at hy; simp [St.setE, v1, ek, hy]
            · simp only [hx, if_false] at hy
              simp [St.setE, hx, v1, i.val x y hy]
          · intro x y hy hxL
            have : ∃ y, v x = some y := by
              by_cases hx : x = h
              · subst hx; exact ⟨u, hvh⟩
              · simp only [hx, if_false] at hy; exact ⟨y, hy⟩
            obtain ⟨y, hy⟩ := this
            have := o1 x y hy hxL
            by_cases hx : x = h <;> simpa [St.setE, hx] using this
        by_cases hbu : u.boxed = true <;> by_cases hbw : w.boxed = true
        · -- both boxed: stays registered
          simp only [hbu, hbw, if_true, Res.ok_bind]
          refine fin s L i.listed (fun _ => rfl) ?_ i.out
          intro x
          rw [i.mem]
          by_cases hx : x = h
          · subst hx
            simp only [if_true, Option.some.injEq, hvh]
            exact ⟨fun _ => boxed_iff.1 hbw, fun _ => boxed_iff.1 hbu⟩
          · simp [hx]
        · -- unregister
          simp only [hbu, hbw, if_true]
          obtain ⟨a, rfl⟩ := boxed_iff.1 hbu
          obtain ⟨A, B, rfl⟩ := split_mem ((i.mem h).2 ⟨a, hvh⟩)
          obtain ⟨s', e1, hd, hc⟩ := remove_spec i.listed
          have l1 := remove_listed i.listed hd fun x _ => (hc x).2
          simp only [e1, Res.ok_bind, Bool.false_eq_true, if_false]
          have hnh : h ∉ A ++ B := fun hm => ((mem_removed i.listed.nodup).1 hm).2 rfl
          refine fin _ (A ++ B) (l1.congr rfl ?_) ?_ ?_ ?_
          · intro x hx
            have : x ≠ h := by rintro rfl; exact hnh hx
            simp [St.setP, St.setN, this]
          · intro x
            by_cases hx : x = h <;> simp [St.setP, St.setN, hx, (hc _).1]
          · intro x
            rw [mem_removed i.listed.nodup, i.mem]
            by_cases hx : x = h
            · subst hx
              simp only [if_true, Option.some.injEq, ne_eq, not_true_eq_false, and_false, false_iff]
              intro hm; exact hbw (boxed_iff.2 hm)
            · simp [hx]
          · intro x y hy hxL
            by_cases hx : x = h
            · subst hx; simp [St.setP, St.setN]
            · have hnot : x ∉ A ++ h :: B := fun hm => hxL ((mem_removed i.listed.nodup).2 ⟨hm, hx⟩)
              have := i.out x y hy hnot
              have hA : A.getLast? ≠ some x := fun e => hxL (by simp [last_mem e])
              have hB : B.head? ≠ some x := fun e => hxL (by simp [head_mem e])
              have h2 := hc x
              rw [if_neg hA, if_neg hB] at h2
              simp only [St.setP, St.setN, hx, if_false]
              rw [h2.2.1, h2.2.2]
              exact this
        · -- register
          have hhL : h ∉ L := fun hm => by
            obtain ⟨a, ha⟩ := (i.mem h).1 hm
            rw [hvh] at ha
            exact hbu (boxed_iff.2 ⟨a, Option.some.inj ha⟩)
          have ho := i.out h u hvh hhL
          obtain ⟨s', e1, l1, v1, o1⟩ := add_spec i.listed hhL ho.1 ho.2
          simp only [hbu, hbw, if_true, e1, Res.ok_bind, Bool.false_eq_true, if_false]
          refine fin s' (h :: L) l1 v1 ?_ ?_
          · intro x
            by_cases hx : x = h
            · subst hx
              simp only [List.mem_cons, true_or, if_true, Option.some.injEq, true_iff]
              exact boxed_iff.1 hbw
            · simp [hx, i.mem]
          · intro x y hy hxL
            rw [o1 x hxL]
            simp only [List.mem_cons, not_or] at hxL
            exact i.out x y hy hxL.2
        · simp only [hbu, hbw, Res.ok_bind, Bool.false_eq_true, if_false]
          refine fin s L i.listed (fun _ => rfl) ?_ i.out
          intro x
          rw [i.mem]
          by_cases hx : x = h
          · subst hx
            simp only [if_true, Option.some.injEq, hvh]
            exact ⟨fun hm => absurd (boxed_iff.2 hm) hbu, fun hm => absurd (boxed_iff.2 hm) hbw⟩
          · simp [hx]
    · cases hs

theorem run_inv : ∀ (os : List Op) {s : St} {v v' : Vals} {L : List Nat}, Inv s v L → specRun v os = some v' →
    ∃ s' L', kRun s os = .ok s' ∧ Inv s' v' L' := by
  intro os
  induction os with
  | nil =>
    intro s v v' L i hs
    simp only [specRun, Option.some.injEq] at hs
    subst hs
    exact ⟨s, L, rfl, i⟩
  | cons o os ih =>
    intro s v v' L i hs
    simp only [specRun, Option.bind_eq_some_iff] at hs
    obtain ⟨v1, e1, e2⟩ := hs
    obtain ⟨s1, L1, e3, i1⟩ := step_inv i o e1
    obtain ⟨s', L', e4, i2⟩ := ih i1 e2
    exact ⟨s', L', by simp [kRun, e3, e4], i2⟩

/-- **C30**. Whatever sequence of constructions, destructions, copies, moves and assignments is performed on handles, every
handle holds the value it would hold as a plain variable; the list the collector follows from `_roots` ends, and it visits
every existing handle whose value is a heap node exactly once, and no other handle. No assertion fails and no pointer is
followed that is not one of a handle. -/
theorem _root_.MZ.C30_keepalive (cell : Nat → Node) (os : List Op) (v : Vals) (hs : specRun (fun _ => none) os = some v) :
    ∃ s L, kRun ⟨cell, none⟩ os = .ok s ∧ (∀ f, L.length ≤ f → walk s f s.head = L) ∧ L.Nodup ∧
      (∀ h, h ∈ L ↔ ∃ a, v h = some (.ref a)) ∧ (∀ h e, v h = some e → (s.cell h).e = e) := by
  have i : Inv ⟨cell, none⟩ (fun _ => none) [] :=
    ⟨⟨List.nodup_nil, rfl, by intro A h B e; simp at e⟩, by simp, by simp, by simp⟩
  obtain ⟨s, L, e, i'⟩ := run_inv os i hs
  exact ⟨s, L, e, fun f hf => walk_listed i'.listed hf, i'.listed.nodup, i'.mem, i'.val⟩

/-- Non-vacuity: a run using every operation, where handles are registered, unregistered and relocated. -/
example : ∃ v, specRun (fun _ => none) [.ctor 1 (.ref 7), .ctor 2 .null, .copy 3 1, .assign 2 3, .move 4 2, .assign 1 2, .ctor 5 (.unboxed 3),
    .assign 3 5, .dtor 3] = some v ∧ v 4 = some (.ref 7) ∧ v 1 = some .null := ⟨_, rfl, rfl, rfl⟩

end GCHandle
end MZ
