import Verif.GC.Handles
/-!
# Doubly linked lists of handles
-/
namespace MZ
namespace GCHandle

/-- The cells of `L` are linked in this order, in both directions. -/
def Lk (c : Nat → Node) (L : List Nat) : Prop :=
  ∀ A h B, L = A ++ h :: B → (c h).p = A.getLast? ∧ (c h).n = B.head?

/-- `s` holds exactly the list `L`. -/
structure Listed (s : St) (L : List Nat) : Prop where
  nodup : L.Nodup
  head : s.head = L.head?
  lk : Lk s.cell L

theorem last_mem {A : List Nat} {x : Nat} (h : A.getLast? = some x) : x ∈ A := List.mem_of_getLast? h
theorem head_mem {A : List Nat} {x : Nat} (h : A.head? = some x) : x ∈ A := List.mem_of_head? h

theorem setPO_cell (s : St) (k v : Option Nat) (x : Nat) :
    ((s.setPO k v).cell x) = if k = some x then { s.cell x with p := v } else s.cell x := by
  cases k with
  | none => simp [St.setPO]
  | some k =>
    by_cases h : x = k
    · subst h; simp [St.setPO, St.setP]
    · have : ¬ k = x := fun e => h e.symm
      simp [St.setPO, St.setP, h, this]

theorem setPO_head (s : St) (k v : Option Nat) : (s.setPO k v).head = s.head := by
  cases k <;> rfl

/-- What `remove` does to the cells. -/
theorem remove_spec {s : St} {A B : List Nat} {h : Nat} (l : Listed s (A ++ h :: B)) :
    ∃ s', remove s h = .ok s' ∧ s'.head = (A ++ B).head? ∧
      ∀ x, (s'.cell x).e = (s.cell x).e ∧
        (s'.cell x).p = (if B.head? = some x then A.getLast? else (s.cell x).p) ∧
        (s'.cell x).n = (if A.getLast? = some x then B.head? else (s.cell x).n) := by
  have hh := l.lk A h B rfl
  have nd := l.nodup
  have hA : h ∉ A := by
    intro hm
    have := List.nodup_append.1 nd
    exact (this.2.2 h hm h (by simp)) rfl
  have hB : h ∉ B := by
    have := (List.nodup_append.1 nd).2.1
    exact (List.nodup_cons.1 this).1
  cases hl : A.getLast? with
  | none =>
    have hA' : A = [] := List.getLast?_eq_none_iff.1 hl
    subst hA'
    rw [hl] at hh
    simp only [remove, hh.1]
    rw [if_neg (by rw [l.head]; simp)]
    refine ⟨_, rfl, ?_, ?_⟩
    · rw [setPO_head]; simpa using hh.2
    · intro x
      rw [setPO_cell]
      simp only [hh.2]
      by_cases hx : B.head? = some x <;> simp [hx, hh.1]
  | some q =>
    rw [hl] at hh
    have hq : q ∈ A := last_mem hl
    have hqh : h ≠ q := fun e => hA (e ▸ hq)
    have hAne : A ≠ [] := by rintro rfl; simp at hl
    simp only [remove, hh.1]
    have ec : (s.setN q (s.cell h).n).cell h = s.cell h := by simp [St.setN, hqh]
    refine ⟨_, rfl, ?_, ?_⟩
    · rw [setPO_head]
      simp only [St.setN]
      rw [l.head]
      cases A with
      | nil => simp at hAne
      | cons a A => simp
    · intro x
      rw [setPO_cell, ec, hh.1, hh.2]
      have : some q = some x ↔ x = q := by
        constructor
        · intro e; exact (Option.some.inj e).symm
        · rintro rfl; rfl
      by_cases hx : B.head? = some x
      · by_cases hx2 : x = q
        · subst hx2
          exfalso
          have := List.nodup_append.1 nd
          exact this.2.2 x hq x (by simp [head_mem hx]) rfl
        · simp [hx, hx2, this, St.setN]
      · by_cases hx2 : x = q
        · subst hx2; simp [hx, St.setN]
        · simp [hx, hx2, this, St.setN]

/-- After unlinking, the rest is linked. -/
theorem remove_listed {s s' : St} {A B : List Nat} {h : Nat} (l : Listed s (A ++ h :: B)) (hd : s'.head = (A ++ B).head?)
    (hc : ∀ x ∈ A ++ B, (s'.cell x).p = (if B.head? = some x then A.getLast? else (s.cell x).p) ∧
        (s'.cell x).n = (if A.getLast? = some x then B.head? else (s.cell x).n)) : Listed s' (A ++ B) := by
  have nd := l.nodup
  have dis : ∀ x ∈ A, x ∉ B := fun x hA hB => (List.nodup_append.1 nd).2.2 x hA x (by simp [hB]) rfl
  refine ⟨?_, hd, ?_⟩
  · have : (A ++ B).Sublist (A ++ h :: B) := by simp
    exact this.nodup nd
  · intro A' x B' e
    have hx := hc x (by rw [e]; simp)
    rcases List.append_eq_append_iff.1 e with ⟨C, h1, h2⟩ | ⟨C, h1, h2⟩
    · -- x is in B: A' = A ++ C, B = C ++ x :: B'
      subst h1 h2
      have hxA : x ∉ A := fun h => dis x h (by simp)
      have old := l.lk (A ++ h :: C) x B' (by simp)
      have hn : A.getLast? ≠ some x := fun e => hxA (last_mem e)
      rw [if_neg hn] at hx
      refine ⟨?_, hx.2.trans old.2⟩
      rw [hx.1]
      cases C with
      | nil => simp
      | cons c C =>
        have : (c :: C ++ x :: B').head? ≠ some x := by
          intro e
          have hcx : c = x := by simpa using e
          have := (List.nodup_append.1 nd).2.1
          rw [List.nodup_cons] at this
          have := this.2
          simp [hcx] at this
        rw [if_neg this, old.1]
        simp [List.getLast?_append, List.getLast?_cons]
    · cases C with
      | nil =>
        -- x is the head of B
        simp at h1 h2
        subst h1
        subst h2
        have hxA : x ∉ A := fun h => dis x h (by simp)
        have old := l.lk (A ++ [h]) x B' (by simp)
        have hn : A.getLast? ≠ some x := fun e => hxA (last_mem e)
        rw [if_neg hn] at hx
        refine ⟨?_, hx.2.trans old.2⟩
        rw [hx.1]
        simp
      | cons c C =>
        simp at h2
        obtain ⟨rfl, rfl⟩ := h2
        subst h1
        have hxB : x ∉ B := dis x (by simp)
        have old := l.lk A' x (C ++ h :: B) (by simp)
        have hb : B.head? ≠ some x := fun e => hxB (head_mem e)
        rw [if_neg hb] at hx
        refine ⟨hx.1.trans old.1, ?_⟩
        rw [hx.2]
        cases C with
        | nil => simp
        | cons c C =>
          have : (A' ++ x :: c :: C).getLast? ≠ some x := by
            intro e
            have e' : (c :: C).getLast? = some x := by
              simpa [List.getLast?_append, List.getLast?_cons] using e
            have hm : x ∈ c :: C := last_mem e'
            have := (List.nodup_append.1 nd).1
            have := (List.nodup_append.1 this).2.1
            rw [List.nodup_cons] at this
            exact this.1 hm
          rw [if_neg this, old.2]
          simp

theorem add_spec {s : St} {L : List Nat} {h : Nat} (l : Listed s L) (hh : h ∉ L) (hp : (s.cell h).p = none) (hn : (s.cell h).n = none) :
    ∃ s', add s h = .ok s' ∧ Listed s' (h :: L) ∧ (∀ x, (s'.cell x).e = (s.cell x).e) ∧
      ∀ x, x ∉ h :: L → s'.cell x = s.cell x := by
  have hne : L.head? ≠ some h := fun e => hh (head_mem e)
  refine ⟨_, by rw [add, if_neg (by simp [hp, hn])], ⟨List.nodup_cons.2 ⟨hh, l.nodup⟩, by simp, ?_⟩, ?_, ?_⟩
  · intro A x B e
    simp only [setPO_cell, St.setN, l.head]
    cases A with
    | nil =>
      simp at e
      obtain ⟨rfl, rfl⟩ := e
      rw [if_neg hne]
      simp [hp]
    | cons a A =>
      simp at e
      obtain ⟨rfl, rfl⟩ := e
      have old := l.lk A x B rfl
      have hxh : x ≠ h := by rintro rfl; exact hh (by simp)
      cases A with
      | nil => simp [hxh, old]
      | cons b A =>
        have : ¬ b = x := by
          rintro rfl
          have := l.nodup
          simp at this
        simp [hxh, old, this, List.getLast?_cons]
  · intro x
    simp only [setPO_cell, St.setN]
    split <;> by_cases h2 : x = h <;> simp [h2]
  · intro x hx
    simp only [List.mem_cons, not_or] at hx
    have : L.head? ≠ some x := fun e => hx.2 (head_mem e)
    simp only [setPO_cell, St.setN, l.head]
    rw [if_neg this, if_neg hx.1]

/-- Changes outside the list, or of the values only, do not matter. -/
theorem Listed.congr {s s' : St} {L : List Nat} (l : Listed s L) (hd : s'.head = s.head)
    (hc : ∀ x ∈ L, (s'.cell x).p = (s.cell x).p ∧ (s'.cell x).n = (s.cell x).n) : Listed s' L := by
  refine ⟨l.nodup, hd.trans l.head, ?_⟩
  intro A h B e
  have := hc h (by rw [e]; simp)
  have old := l.lk A h B e
  exact ⟨this.1.trans old.1, this.2.trans old.2⟩

/-- Following the list yields it. -/
theorem walk_listed {s : St} {L : List Nat} (l : Listed s L) {f : Nat} (hf : L.length ≤ f) : walk s f s.head = L := by
  have gen : ∀ (B A : List Nat) (f : Nat), L = A ++ B → B.length ≤ f → walk s f B.head? = B := by
    intro B
    induction B with
    | nil => intro A f _ _; cases f <;> rfl
    | cons b B ih =>
      intro A f e hf
      cases f with
      | zero => simp at hf
      | succ f =>
        have := l.lk A b B e
        simp only [List.head?_cons, walk, this.2]
        rw [ih (A ++ [b]) f (by simp [e]) (by simpa using hf)]
  rw [l.head]
  exact gen L [] f rfl hf

end GCHandle
end MZ
