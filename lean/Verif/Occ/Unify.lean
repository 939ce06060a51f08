import Verif.Occ.Steps

namespace MZ
namespace Occ

theorem rhsAt_eq {s : State} {j v : Nat} {rhs : Option Rhs} (h : Live s j (.decl v rhs)) : rhsAt s j = some (v, rhs) := by
  rw [rhsAt, show s.items[j]? = some (some (.decl v rhs)) from h]

theorem live_of_rhsAt {s : State} {j v : Nat} {rhs : Option Rhs} (h : rhsAt s j = some (v, rhs)) : Live s j (.decl v rhs) := by
  unfold rhsAt at h
  split at h
  · rename_i w r hl
    simp at h
    rw [Live, hl, h.1, h.2]
  · simp at h

/-- A change of a right hand side. -/
theorem idx_setRhs {s s' : State} (I : Idx s) {j v : Nat} {r r' : Option Rhs} (hl : Live s j (.decl v r))
    (hi : s'.items = s.items.set j (some (.decl v r'))) (hr : s'.root = s.root) (hx : s'.idx = s.idx) : Idx s' := by
  obtain ⟨l1, l2⟩ := set_some_live (live_lt hl) hi
  refine ⟨by rw [hr]; exact I.idem, ?_, ?_⟩
  · intro w k hk
    rw [hx] at hk
    by_cases hkj : k = j
    · subst hkj
      rcases I.idx w k hk with h | ⟨rhs, h⟩
      · rw [Live, h] at hl; simp at hl
      · have := live_unique h hl
        simp at this
        exact .inr ⟨r', this.1 ▸ l1⟩
    · rcases I.idx w k hk with h | ⟨rhs, h⟩
      · left; rw [hi, List.getElem?_set_ne (Ne.symm hkj)]; exact h
      · exact .inr ⟨rhs, (l2 k hkj _).mpr h⟩
  · intro w k rhs h
    rw [hx, hr]
    by_cases hkj : k = j
    · subst hkj
      have := live_unique h l1
      simp at this
      rw [this.1]
      exact I.idx' v k r hl
    · exact I.idx' w k rhs ((l2 k hkj _).mp h)

/-- Without a right hand side there are no occurrences. -/
theorem no_use {s : State} {j v w : Nat} (hl : Live s j (.decl v none)) : ¬ Uses s j w := by
  rintro ⟨b, h1, u, h2, _⟩
  have := live_unique h1 hl
  subst this
  simp [Body.occ] at h2

theorem dropAlias_spec {s : State} (I : Idx s) (C : Cov s) {v0 v1 j0 : Nat} {r0 : Option Rhs}
    (h0 : Live s j0 (.decl v0 r0)) :
    ∃ s1 r0', dropAlias s v0 v1 j0 = some s1 ∧ Idx s1 ∧ Cov s1 ∧ s1.root = s.root ∧ s1.idx = s.idx ∧
      Live s1 j0 (.decl v0 r0') ∧ (∀ j, j ≠ j0 → ∀ b, Live s1 j b ↔ Live s j b) ∧
      ((r0 = none ∨ ∀ u, r0 = some (.alias u) → s.root u ≠ v0 ∧ s.root u ≠ v1) → s1 = s ∧ r0' = r0) := by
  rw [dropAlias, rhsAt_eq h0]
  by_cases ha : isAliasOf s v0 v1 r0 = true
  · simp only [if_pos ha]
    obtain ⟨l1, l2⟩ := set_some_live (s := setRhs s j0 v0 none) (b := .decl v0 none) (live_lt h0) rfl
    refine ⟨setRhs s j0 v0 none, none, rfl, idx_setRhs I h0 rfl rfl rfl, ?_, rfl, rfl, l1, l2, ?_⟩
    · rintro j v ⟨b, q1, u, q2, q3⟩
      by_cases hj : j = j0
      · subst hj; exact absurd ⟨b, q1, u, q2, q3⟩ (no_use l1)
      · exact C j v ⟨b, (l2 j hj b).mp q1, u, q2, q3⟩
    · intro h
      exfalso
      unfold isAliasOf at ha
      split at ha
      · rename_i u
        rcases h with h | h
        · simp at h
        · have := h u rfl
          simp only [decide_eq_true_eq] at ha
          rcases ha with ha | ha
          · exact this.1 ha
          · exact this.2 ha
      · simp at ha
  · simp only [if_neg ha]
    exact ⟨s, r0, rfl, I, C, rfl, rfl, h0, fun _ _ _ => Iff.rfl, fun _ => ⟨rfl, rfl⟩⟩

theorem moveRhs_spec (E : Env) {s : State} (I : Idx s) (C : Cov s) {v0 v1 j0 j1 : Nat} {r0 r1 : Option Rhs} (hne : j0 ≠ j1)
    (h0 : Live s j0 (.decl v0 r0)) (h1 : Live s j1 (.decl v1 r1)) :
    ∃ s2 r1', moveRhs E s j0 j1 = some s2 ∧ Idx s2 ∧ Cov s2 ∧ s2.root = s.root ∧ s2.idx = s.idx ∧
      Live s2 j0 (.decl v0 none) ∧ Live s2 j1 (.decl v1 r1') ∧
      ((r0 = none ∨ r1 = none) → Exact s → Exact s2) := by
  rw [moveRhs, rhsAt_eq h0, rhsAt_eq h1]
  cases r0 with
  | none => exact ⟨s, r1, rfl, I, C, rfl, rfl, h0, h1, fun _ X => X⟩
  | some r =>
    simp only [collect_eq]
    obtain ⟨ds, e1, e2, e3⟩ := uncollect_eq E.free j0 r.occ (setRhs (setRhs { s with map := insMap s j1 r.occ } j1 v1 (some r)) j0 v0 none) (by
      intro u hu
      simp only [setRhs, insMap, if_pos (List.mem_map.mpr ⟨u, hu, rfl⟩ : s.root u ∈ r.occ.map s.root)]
      simp)
    rw [e1]
    have l1 : j1 < s.items.length := live_lt h1
    have l0 : j0 < s.items.length := live_lt h0
    have L0 : Live (setRhs (setRhs { s with map := insMap s j1 r.occ } j1 v1 (some r)) j0 v0 none) j0 (.decl v0 none) := by
      rw [Live]; simp [setRhs, l0]
    have L1 : Live (setRhs (setRhs { s with map := insMap s j1 r.occ } j1 v1 (some r)) j0 v0 none) j1 (.decl v1 (some r)) := by
      rw [Live]; simp [setRhs, hne, l1]
    have L2 : ∀ j, j ≠ j0 → j ≠ j1 → ∀ b,
        Live (setRhs (setRhs { s with map := insMap s j1 r.occ } j1 v1 (some r)) j0 v0 none) j b ↔ Live s j b := by
      intro j q0 q1 b
      rw [Live, Live]
      simp only [setRhs]
      rw [List.getElem?_set_ne (Ne.symm q0), List.getElem?_set_ne (Ne.symm q1)]
    -- the index
    have I1 : Idx (setRhs { s with map := insMap s j1 r.occ } j1 v1 (some r)) := idx_setRhs I h1 rfl rfl rfl
    have h0' : Live (setRhs { s with map := insMap s j1 r.occ } j1 v1 (some r)) j0 (.decl v0 (some r)) := by
      rw [Live]; simp only [setRhs]; rw [List.getElem?_set_ne (Ne.symm hne)]; exact h0
    have I2 : Idx (setRhs (setRhs { s with map := insMap s j1 r.occ } j1 v1 (some r)) j0 v0 none) := idx_setRhs I1 h0' rfl rfl rfl
    refine ⟨{ (setRhs (setRhs { s with map := insMap s j1 r.occ } j1 v1 (some r)) j0 v0 none) with
      map := eraseMap (setRhs (setRhs { s with map := insMap s j1 r.occ } j1 v1 (some r)) j0 v0 none) j0 r.occ }, some r,
      rfl, ⟨I2.idem, I2.idx, I2.idx'⟩, ?_, rfl, rfl, L0, L1, ?_⟩
    · rintro j v ⟨b, q1, u, q2, q3⟩
      have q3 : s.root u = s.root v := q3
      have hj0 : j ≠ j0 := by
        rintro rfl
        exact no_use (w := v) L0 ⟨b, q1, u, q2, q3⟩
      simp only [eraseMap, setRhs, insMap]
      by_cases hj1 : j = j1
      · subst hj1
        have := live_unique q1 L1
        subst this
        have hm : s.root v ∈ r.occ.map s.root := List.mem_map.mpr ⟨u, q2, q3⟩
        simp only [if_pos hm]
        exact ⟨_, rfl, by simp [hj0]⟩
      · obtain ⟨S, hS, hjS⟩ := C j v ⟨b, (L2 j hj0 hj1 b).mp q1, u, q2, q3⟩
        split
        · exact ⟨_, rfl, by simp [hS, hjS, hj0]⟩
        · exact ⟨S, hS, hjS⟩
    · rintro (h | h) X
      · simp at h
      · subst h
        intro ρ hρ S hS k hk
        replace hρ : s.root ρ = ρ := hρ
        simp only [eraseMap, setRhs, insMap] at hS
        have old : ∀ S0, s.map ρ = some S0 → k ∈ S0 → k ≠ j0 ∨ ρ ∉ r.occ.map s.root →
            Uses { (setRhs (setRhs { s with map := insMap s j1 r.occ } j1 v1 (some r)) j0 v0 none) with
              map := eraseMap (setRhs (setRhs { s with map := insMap s j1 r.occ } j1 v1 (some r)) j0 v0 none) j0 r.occ } k ρ := by
          intro S0 p1 p2 p3
          obtain ⟨b, w1, u, w2, w3⟩ := X ρ hρ S0 p1 k p2
          have hk1 : k ≠ j1 := by
            rintro rfl
            exact no_use h1 ⟨b, w1, u, w2, w3⟩
          have hk0 : k ≠ j0 := by
            rintro rfl
            rcases p3 with p3 | p3
            · exact p3 rfl
            · have := live_unique w1 h0
              subst this
              exact p3 (List.mem_map.mpr ⟨u, w2, w3.trans hρ⟩)
          exact ⟨b, (L2 k hk0 hk1 b).mpr w1, u, w2, w3⟩
        split at hS
        · rename_i hm
          simp only [Option.map_some, Option.some.injEq] at hS
          subst hS
          obtain ⟨k0, k1⟩ := Finset.mem_erase.mp hk
          rcases Finset.mem_insert.mp k1 with hk1 | hk1
          · subst hk1
            obtain ⟨u, w2, w3⟩ := List.mem_map.mp hm
            exact ⟨_, L1, u, w2, show s.root u = s.root ρ from w3.trans (Eq.symm hρ)⟩
          · cases hm0 : s.map ρ with
            | none => simp [hm0] at hk1
            | some S0 => exact old S0 hm0 (by simpa [hm0] using hk1) (.inl k0)
        · rename_i hm
          exact old S hS hk (.inr hm)

theorem clearAlias_spec (E : Env) {s : State} (I : Idx s) (C : Cov s) {v0 v1 j0 j1 : Nat} {r1 : Option Rhs} (hne : j0 ≠ j1)
    (h0 : Live s j0 (.decl v0 none)) (h1 : Live s j1 (.decl v1 r1)) :
    ∃ s3, clearAlias E s v0 v1 j1 = some s3 ∧ Idx s3 ∧ Cov s3 ∧ s3.root = s.root ∧ s3.idx = s.idx ∧
      Live s3 j0 (.decl v0 none) ∧ (Exact s → Exact s3) := by
  rw [clearAlias, rhsAt_eq h1]
  simp only
  split
  · cases r1 with
    | none => exact ⟨s, rfl, I, C, rfl, rfl, h0, id⟩
    | some r =>
      simp only
      obtain ⟨ds, e1, _, _⟩ := uncollect_eq E.free j1 r.occ (setRhs s j1 v1 none) (by
        intro u hu
        obtain ⟨S, hS, _⟩ := C j1 u ⟨_, h1, u, hu, rfl⟩
        simp [setRhs, hS])
      rw [e1]
      obtain ⟨l1, l2⟩ := set_some_live (s := { (setRhs s j1 v1 none) with map := eraseMap (setRhs s j1 v1 none) j1 r.occ })
        (b := .decl v1 none) (live_lt h1) rfl
      refine ⟨_, rfl, idx_setRhs I h1 rfl rfl rfl, ?_, rfl, rfl, (l2 j0 hne _).mpr h0, ?_⟩
      · rintro j v ⟨b, q1, u, q2, q3⟩
        have hj : j ≠ j1 := by
          rintro rfl
          exact no_use (w := v) l1 ⟨b, q1, u, q2, q3⟩
        obtain ⟨S, hS, hjS⟩ := C j v ⟨b, (l2 j hj b).mp q1, u, q2, q3⟩
        show ∃ S, eraseMap s j1 r.occ (s.root v) = some S ∧ j ∈ S
        simp only [eraseMap]
        by_cases hm : s.root v ∈ r.occ.map s.root
        · rw [if_pos hm]; exact ⟨S.erase j1, by simp [hS], by simp [hj, hjS]⟩
        · rw [if_neg hm]; exact ⟨S, hS, hjS⟩
      · intro X ρ hρ S hS k hk
        replace hρ : s.root ρ = ρ := hρ
        replace hS : eraseMap s j1 r.occ ρ = some S := hS
        simp only [eraseMap] at hS
        have key : ∃ S0, s.map ρ = some S0 ∧ k ∈ S0 ∧ (ρ ∈ r.occ.map s.root → k ≠ j1) := by
          by_cases hn : ρ ∈ r.occ.map s.root
          · rw [if_pos hn] at hS
            obtain ⟨S0, a, rfl⟩ := Option.map_eq_some_iff.mp hS
            obtain ⟨c, d⟩ := Finset.mem_erase.mp hk
            exact ⟨S0, a, d, fun _ => c⟩
          · rw [if_neg hn] at hS
            exact ⟨S, hS, hk, fun h => absurd h hn⟩
        obtain ⟨S0, a, c, d⟩ := key
        obtain ⟨b, w1, u, w2, w3⟩ := X ρ hρ S0 a k c
        have hk1 : k ≠ j1 := by
          by_contra hkj
          subst hkj
          have := live_unique w1 h1
          subst this
          exact d (List.mem_map.mpr ⟨u, w2, w3.trans hρ⟩) rfl
        exact ⟨b, (l2 k hk1 b).mpr w1, u, w2, w3⟩
  · exact ⟨s, rfl, I, C, rfl, rfl, h0, id⟩

theorem unifyMap_spec {s : State} (I : Idx s) (C : Cov s) {v0 v1 j0 : Nat} (hne : v0 ≠ v1) (hr0 : s.root v0 = v0)
    (hr1 : s.root v1 = v1) (h0 : Live s j0 (.decl v0 none)) :
    ∃ s', unifyMap s v0 v1 = some s' ∧ Idx s' ∧ Cov s' ∧ (Exact s → Exact s') ∧
      (∀ v, s'.root v = if s.root v = v0 then v1 else s.root v) := by
  have hidx := (I.idx' v0 j0 none h0).1
  rw [unifyMap]
  simp only [hr0, hr1, if_neg hne, hidx]
  generalize hmap : mergeMap s.map v0 v1 = m
  have hm1 : ∀ ρ, ρ ≠ v0 → ρ ≠ v1 → m ρ = s.map ρ := by
    intro ρ a b
    rw [← hmap, mergeMap]
    cases s.map v0 <;> cases s.map v1 <;> simp [upd, a, b]
  have hm2 : ∀ k, (∃ S, m v1 = some S ∧ k ∈ S) ↔ (∃ S, s.map v0 = some S ∧ k ∈ S) ∨ (∃ S, s.map v1 = some S ∧ k ∈ S) := by
    intro k
    rw [← hmap, mergeMap]
    cases a : s.map v0 <;> cases b : s.map v1 <;> simp [upd, Ne.symm hne, b, or_comm]
  clear hmap
  refine ⟨_, rfl, ⟨?_, ?_, ?_⟩, ?_, ?_, fun _ => rfl⟩
  · intro v
    simp only
    by_cases h : s.root v = v0
    · simp [h, hr1, Ne.symm hne]
    · simp [h, I.idem]
  · intro v j hj
    simp only [upd] at hj
    split at hj
    · simp at hj
    · by_cases hjj : j = j0
      · left; subst hjj; simp [live_lt h0]
      · rcases I.idx v j hj with h | ⟨rhs, h⟩
        · left; simpa [Ne.symm hjj] using h
        · exact .inr ⟨rhs, set_none_some.mpr ⟨hjj, h⟩⟩
  · intro v j rhs h
    obtain ⟨hj, hl⟩ := set_none_some.mp h
    obtain ⟨a, b⟩ := I.idx' v j rhs hl
    have hv : v ≠ v0 := by
      rintro rfl
      rw [hidx] at a
      simp at a
      exact hj a.symm
    simp only [upd, if_neg hv, b]
    exact ⟨a, trivial⟩
  · rintro j v ⟨b, q1, u, q2, q3⟩
    obtain ⟨hj, hl⟩ := set_none_some.mp q1
    obtain ⟨S, hS, hjS⟩ := C j u ⟨b, hl, u, q2, rfl⟩
    simp only at q3 ⊢
    rw [← q3]
    by_cases hu : s.root u = v0
    · rw [if_pos hu]
      exact (hm2 j).mpr (.inl ⟨S, hu ▸ hS, hjS⟩)
    · rw [if_neg hu]
      by_cases hu1 : s.root u = v1
      · rw [hu1]
        exact (hm2 j).mpr (.inr ⟨S, hu1 ▸ hS, hjS⟩)
      · rw [hm1 _ hu hu1]
        exact ⟨S, hS, hjS⟩
  · intro X ρ hρ S hS k hk
    simp only at hρ hS
    have lift : ∀ {w}, Uses s k w → ∀ {w'}, (if s.root w = v0 then v1 else s.root w) = (if s.root w' = v0 then v1 else s.root w') →
        Uses { s with items := s.items.set j0 none, map := m, idx := upd s.idx v0 none,
                      root := fun v => if s.root v = v0 then v1 else s.root v } k w' := by
      rintro w ⟨b, w1, u, w2, w3⟩ w' h
      refine ⟨b, set_none_some.mpr ⟨?_, w1⟩, u, w2, ?_⟩
      · rintro rfl
        exact no_use h0 ⟨b, w1, u, w2, w3⟩
      · simp only [w3]; exact h
    by_cases h1 : ρ = v1
    · subst h1
      rcases (hm2 k).mp ⟨S, hS, hk⟩ with ⟨S0, a, b⟩ | ⟨S0, a, b⟩
      · exact lift (X v0 hr0 S0 a k b) (by simp [hr0, hr1])
      · exact lift (X ρ hr1 S0 a k b) rfl
    · have hρ0 : s.root ρ ≠ v0 := by
        intro h
        rw [if_pos h] at hρ
        exact h1 hρ.symm
      rw [if_neg hρ0] at hρ
      rw [hm1 ρ (hρ ▸ hρ0) h1] at hS
      exact lift (X ρ hρ S hS k hk) rfl

theorem unify_spec (E : Env) {s : State} (I : Idx s) (C : Cov s) (a b i0 i1 : Nat) (ha : Declares s i0 (s.root a))
    (hb : Declares s i1 (s.root b)) :
    ∃ s', unify E s a b = some s' ∧ Idx s' ∧ Cov s' ∧ (Tidy E s a b → Exact s → Exact s') ∧ s'.root a = s'.root b ∧
      ∀ u w, s'.root u = s'.root w → s.root u = s.root w ∨
        (s.root u = s.root a ∨ s.root u = s.root b) ∧ (s.root w = s.root a ∨ s.root w = s.root b) := by
  rw [unify]
  simp only
  by_cases hab : s.root a = s.root b
  · rw [if_pos hab]
    exact ⟨s, rfl, I, C, fun _ X => X, hab, fun u w h => .inl h⟩
  rw [if_neg hab]
  unfold Tidy
  simp only
  have hv0 : ∃ i r, Live s i (.decl (if E.output (s.root a) = true then s.root b else s.root a) r) := by
    split
    · obtain ⟨r, h⟩ := hb; exact ⟨i1, r, h⟩
    · obtain ⟨r, h⟩ := ha; exact ⟨i0, r, h⟩
  have hv1 : ∃ i r, Live s i (.decl (if E.output (s.root a) = true then s.root a else s.root b) r) := by
    split
    · obtain ⟨r, h⟩ := ha; exact ⟨i0, r, h⟩
    · obtain ⟨r, h⟩ := hb; exact ⟨i1, r, h⟩
  have hne : (if E.output (s.root a) = true then s.root b else s.root a) ≠
      (if E.output (s.root a) = true then s.root a else s.root b) := by
    split
    · exact Ne.symm hab
    · exact hab
  have hset : ∀ x, (x = (if E.output (s.root a) = true then s.root b else s.root a) ∨
      x = (if E.output (s.root a) = true then s.root a else s.root b)) ↔ (x = s.root a ∨ x = s.root b) := by
    intro x
    split <;> tauto
  generalize (if E.output (s.root a) = true then s.root b else s.root a) = v0 at *
  generalize (if E.output (s.root a) = true then s.root a else s.root b) = v1 at *
  obtain ⟨j0, r0, L0⟩ := hv0
  obtain ⟨j1, r1, L1⟩ := hv1
  obtain ⟨x0, rt0⟩ := I.idx' _ _ _ L0
  obtain ⟨x1, rt1⟩ := I.idx' _ _ _ L1
  have hj : j0 ≠ j1 := by
    rintro rfl
    have := live_unique L0 L1
    simp at this
    exact hne this.1
  rw [x0, x1]
  simp only
  obtain ⟨s1, r0', e1, I1, C1, rr1, xx1, L0', Lo, T1⟩ := dropAlias_spec (v1 := v1) I C L0
  have L1' : Live s1 j1 (.decl v1 r1) := (Lo j1 (Ne.symm hj) _).mpr L1
  obtain ⟨s2, r1', e2, I2, C2, rr2, xx2, L0'', L1'', T2⟩ := moveRhs_spec E I1 C1 hj L0' L1'
  obtain ⟨s3, e3, I3, C3, rr3, xx3, L0''', T3⟩ := clearAlias_spec E I2 C2 hj L0'' L1''
  have rr : s3.root = s.root := by rw [rr3, rr2, rr1]
  obtain ⟨s', e4, I4, C4, X4, rt4⟩ := unifyMap_spec (v1 := v1) I3 C3 hne (by rw [rr]; exact rt0) (by rw [rr]; exact rt1) L0'''
  rw [rr] at rt4
  refine ⟨s', by simp only [e1, e2, e3, e4], I4, C4, ?_, ?_, ?_⟩
  · intro T X
    have := T j0 j1 r0 r1 L0 L1
    obtain ⟨hs, hr⟩ := T1 (this.imp id (fun h => h.2))
    subst hs hr
    exact X4 (T3 (T2 (this.imp id (fun h => h.1)) X))
  · rw [rt4, rt4]
    have h1 := (hset (s.root a)).mpr (.inl rfl)
    have h2 := (hset (s.root b)).mpr (.inr rfl)
    rcases h1 with h1 | h1 <;> rcases h2 with h2 | h2 <;> simp [h1, h2]
  · intro u w h
    rw [rt4, rt4] at h
    rw [← hset, ← hset]
    by_cases h1 : s.root u = v0 <;> by_cases h2 : s.root w = v0 <;> simp [h1, h2] at h ⊢ <;> try tauto

end Occ
end MZ
