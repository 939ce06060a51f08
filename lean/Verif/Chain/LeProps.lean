import Verif.Chain.Le
import Verif.Chain.ImpProps
import Verif.Linear.Props

/-!
# C42: compressing inequalities keeps the solutions for the other variables
-/

namespace MZ
namespace Chain
open Linear (Atom simplifyLinIdx SortedIdx)

/-! ## What happens to the items -/

theorem replaceAll_next {E : LEnv} {old new : Nat} : ∀ (T : List Nat) (s s' : LState),
    replaceAll E old new s T = .next s' → T.Nodup →
    s'.items.length = s.items.length ∧ (∀ i, i ∉ T → s'.items[i]? = s.items[i]?) ∧
    (∀ i ∈ T, ∃ ts c, s.items[i]? = some (some (.lin ts c)) ∧
      ((replaceLin E old new ts c = .ok .gone ∧ s'.items[i]? = some none) ∨
       ∃ ts2 c2, replaceLin E old new ts c = .ok (.lin ts2 c2) ∧ s'.items[i]? = some (some (.lin ts2 c2)))) := by
  intro T
  induction T with
  | nil =>
    intro s s' h _
    simp only [replaceAll, LOutcome.next.injEq] at h
    subst h
    simp
  | cons i T ih =>
    intro s s' h hnd
    have hnd' := List.nodup_cons.1 hnd
    simp only [replaceAll] at h
    split at h
    · rename_i ts c hi
      have hlt := (List.getElem?_eq_some_iff.1 hi).1
      have main : ∀ (rep : Option LItem) (s1 : LState), s1.items = s.items.set i rep →
          replaceAll E old new s1 T = .next s' →
          ((replaceLin E old new ts c = .ok .gone ∧ rep = none) ∨
           ∃ ts2 c2, replaceLin E old new ts c = .ok (.lin ts2 c2) ∧ rep = some (.lin ts2 c2)) →
          s'.items.length = s.items.length ∧ (∀ j, j ∉ i :: T → s'.items[j]? = s.items[j]?) ∧
          (∀ j ∈ i :: T, ∃ ts c, s.items[j]? = some (some (.lin ts c)) ∧
            ((replaceLin E old new ts c = .ok .gone ∧ s'.items[j]? = some none) ∨
             ∃ ts2 c2, replaceLin E old new ts c = .ok (.lin ts2 c2) ∧ s'.items[j]? = some (some (.lin ts2 c2)))) := by
        intro rep s1 hs1 hr hrep
        obtain ⟨k0, k1, k2⟩ := ih s1 s' hr hnd'.2
        have hset : ∀ j, j ≠ i → s1.items[j]? = s.items[j]? := by
          intro j hj
          rw [hs1, List.getElem?_set_ne (fun h => hj h.symm)]
        refine ⟨by rw [k0, hs1]; simp, ?_, ?_⟩
        · intro j hj
          simp only [List.mem_cons, not_or] at hj
          rw [k1 j hj.2, hset j hj.1]
        · intro j hj
          rcases List.mem_cons.1 hj with rfl | hj
          · refine ⟨ts, c, hi, ?_⟩
            have : s'.items[j]? = some rep := by
              rw [k1 j hnd'.1, hs1]; simp [hlt]
            rcases hrep with ⟨h1, rfl⟩ | ⟨ts2, c2, h1, rfl⟩
            · exact Or.inl ⟨h1, this⟩
            · exact Or.inr ⟨ts2, c2, h1, this⟩
          · have hne : j ≠ i := fun h => hnd'.1 (h ▸ hj)
            obtain ⟨ts', c', h1, h2⟩ := k2 j hj
            exact ⟨ts', c', by rw [← hset j hne]; exact h1, h2⟩
      split at h
      · cases h
      · rename_i hrl
        exact main none _ rfl h (Or.inl ⟨hrl, rfl⟩)
      · rename_i ts2 c2 hrl
        exact main (some (.lin ts2 c2)) _ rfl h (Or.inr ⟨ts2, c2, hrl, rfl⟩)
      · cases h
      · cases h
    · cases h

theorem replaceAll_unsat {E : LEnv} {old new : Nat} : ∀ (T : List Nat) (s : LState),
    replaceAll E old new s T = .unsat → T.Nodup →
    ∃ i ∈ T, ∃ ts c, s.items[i]? = some (some (.lin ts c)) ∧ replaceLin E old new ts c = .ok .unsat := by
  intro T
  induction T with
  | nil => intro s h _; simp [replaceAll] at h
  | cons i T ih =>
    intro s h hnd
    have hnd' := List.nodup_cons.1 hnd
    have main : ∀ (rep : Option LItem) (s1 : LState), s1.items = s.items.set i rep →
        replaceAll E old new s1 T = .unsat →
        ∃ j ∈ i :: T, ∃ ts c, s.items[j]? = some (some (.lin ts c)) ∧ replaceLin E old new ts c = .ok .unsat := by
      intro rep s1 hs1 hr
      obtain ⟨j, hj, ts, c, h1, h2⟩ := ih s1 hr hnd'.2
      refine ⟨j, List.mem_cons_of_mem _ hj, ts, c, ?_, h2⟩
      have hne : i ≠ j := fun h => hnd'.1 (h ▸ hj)
      rw [hs1, List.getElem?_set_ne hne] at h1
      exact h1
    simp only [replaceAll] at h
    split at h
    · rename_i ts c hi
      split at h
      · rename_i hrl; exact ⟨i, by simp, ts, c, hi, hrl⟩
      · exact main none _ rfl h
      · exact main _ _ rfl h
      · cases h
      · cases h
    · cases h

/-! ## The meaning of a replacement -/

/-- The same assignment, except for the value of `y`. -/
def setl (ρ : Atom → Int) (y : Nat) (b : Int) : Atom → Int := fun a => if a = .id y then b else ρ a

theorem setl_self (ρ : Atom → Int) (y : Nat) : setl ρ y (ρ (.id y)) = ρ := by
  funext a; simp only [setl]; split
  · rename_i h; rw [h]
  · rfl

theorem sum_rename (ρ : Atom → Int) (old new : Nat) (ts : List (Int × Atom)) :
    Linear.sum ρ (ts.map (renameTerm old new)) = Linear.sum (setl ρ old (ρ (.id new))) ts := by
  unfold Linear.sum
  rw [List.map_map]
  congr 1
  apply List.map_congr_left
  rintro ⟨c, a⟩ _
  simp only [Function.comp, renameTerm]
  congr 1
  cases a with
  | lit v => simp [Linear.Atom.eval]
  | other r => simp [Linear.Atom.eval, setl]
  | id v =>
    by_cases h : v = old
    · subst h; simp [Linear.Atom.eval, setl]
    · simp [Linear.Atom.eval, setl, h]

/-- What the replaced inequality says. -/
def Replaced.Holds (ρ : Atom → Int) : Replaced → Prop
  | .unsat => False
  | .gone => True
  | .lin ts c => Linear.sum ρ ts ≤ c

theorem replaceLin_holds {E : LEnv} (hE : ∀ ts, SortedIdx ts (E.sorter ts)) {old new : Nat} {ts : List (Int × Atom)}
    {c : Int} {r : Replaced} (h : replaceLin E old new ts c = .ok r) (ρ : Atom → Int) :
    r.Holds ρ ↔ Linear.sum (setl ρ old (ρ (.id new))) ts ≤ c := by
  rw [← sum_rename]
  unfold replaceLin at h
  dsimp only at h
  rw [Res.bind_eq_ok] at h
  obtain ⟨⟨ts2, d⟩, h1, h2⟩ := h
  have hv := C12_value _ _ _ _ _ (hE _) h1 ρ
  dsimp only at h2
  split at h2
  · rename_i he
    subst he
    have h0 : Linear.sum ρ [] = 0 := rfl
    rw [h0] at hv
    split at h2
    · cases h2
      simp only [Replaced.Holds, false_iff]
      omega
    · cases h2
      simp only [Replaced.Holds, true_iff]
      omega
  · rw [Res.bind_eq_ok] at h2
    obtain ⟨c2, h3, h4⟩ := h2
    cases h4
    have hc := (safeMinus_ok h3).1
    simp only [Replaced.Holds]
    omega

theorem sum_le {ρ τ : Atom → Int} {y : Nat} (he : ∀ a, a ≠ .id y → ρ a = τ a) (hle : ρ (.id y) ≤ τ (.id y)) :
    ∀ ts : List (Int × Atom), (∀ t ∈ ts, t.2 = .id y → 0 ≤ t.1) → Linear.sum ρ ts ≤ Linear.sum τ ts := by
  intro ts
  induction ts with
  | nil => intro _; exact le_refl _
  | cons t ts ih =>
    intro h
    have h1 := ih (fun t ht => h t (List.mem_cons_of_mem _ ht))
    simp only [Linear.sum, List.map_cons, List.sum_cons] at h1 ⊢
    have h2 : t.1 * t.2.eval ρ ≤ t.1 * t.2.eval τ := by
      by_cases hy : t.2 = .id y
      · rw [hy]
        exact mul_le_mul_of_nonneg_left hle (h t (by simp) hy)
      · have : t.2.eval ρ = t.2.eval τ := by
          cases ht : t.2 with
          | lit v => rfl
          | id v => rw [ht] at hy; exact he _ hy
          | other r => exact he _ (by simp)
        rw [this]
    omega

theorem sum_congr {ρ τ : Atom → Int} {y : Nat} (he : ∀ a, a ≠ .id y → ρ a = τ a) (ts : List (Int × Atom))
    (hy : Atom.id y ∉ ts.map Prod.snd) : Linear.sum ρ ts = Linear.sum τ ts := by
  unfold Linear.sum
  congr 1
  apply List.map_congr_left
  intro t ht
  congr 1
  cases h : t.2 with
  | lit v => rfl
  | id v =>
    apply he
    intro hv
    exact hy (List.mem_map.2 ⟨t, ht, by rw [h, hv]⟩)
  | other r => exact he _ (by simp)

theorem keys_pos {ts : List (Int × Atom)} {c : Int} {v : Nat} (h : v ∈ (LItem.lin ts c).keys) :
    ∃ t ∈ ts, t.2 = .id v ∧ 0 < t.1 := by
  simp only [LItem.keys, List.mem_filterMap] at h
  obtain ⟨⟨a, x⟩, ht, hk⟩ := h
  cases x with
  | id w =>
    simp only [termKey] at hk
    split at hk
    · rename_i hp; cases hk; exact ⟨_, ht, rfl, hp⟩
    · cases hk
  | lit _ => simp [termKey] at hk
  | other _ => simp [termKey] at hk

theorem keys_of_pos {ts : List (Int × Atom)} {c : Int} {v : Nat} {t : Int × Atom} (ht : t ∈ ts) (h1 : t.2 = .id v)
    (h2 : 0 < t.1) : v ∈ (LItem.lin ts c).keys := by
  simp only [LItem.keys, List.mem_filterMap]
  refine ⟨t, ht, ?_⟩
  obtain ⟨a, x⟩ := t
  dsimp only at h1 h2
  subst h1
  simp [termKey, h2]

/-- All terms with the variable have a positive coefficient. -/
theorem all_pos {ts : List (Int × Atom)} {c : Int} {v : Nat} (h : v ∈ (LItem.lin ts c).keys)
    (hnd : (ts.map Prod.snd).Nodup) : ∀ t ∈ ts, t.2 = .id v → 0 ≤ t.1 := by
  obtain ⟨t0, h0, h1, h2⟩ := keys_pos h
  intro t ht htv
  have : t = t0 := List.inj_on_of_nodup_map hnd ht h0 (by rw [htv, h1])
  rw [this]
  omega

theorem keys_mentions_le {S : LSig} {it : LItem} {v : Nat} (h : v ∈ it.keys) : it.mentions S v = true := by
  cases it with
  | lin ts c =>
    obtain ⟨t, ht, h1, -⟩ := keys_pos h
    simp only [LItem.mentions, decide_eq_true_eq, List.mem_map]
    exact ⟨t, ht, h1⟩
  | other n => simp [LItem.keys] at h

/-! ## Counting -/

/-- The live items that contain `v`, as a set of indices. -/
def loccSet (S : LSig) (s : LState) (v : Nat) : Finset Nat :=
  (Finset.range s.items.length).filter fun i =>
    (match s.items.getD i none with | some it => it.mentions S v | none => false) = true

theorem loccurrences_card (S : LSig) (s : LState) (v : Nat) : loccurrences S s v = (loccSet S s v).card := by
  unfold loccurrences loccSet
  exact filter_range _ none s.items

theorem mem_loccSet {S : LSig} {s : LState} {v i : Nat} :
    i ∈ loccSet S s v ↔ ∃ it, s.items[i]? = some (some it) ∧ it.mentions S v = true := by
  unfold loccSet
  rw [Finset.mem_filter, Finset.mem_range]
  constructor
  · rintro ⟨h, h2⟩
    rw [List.getD_eq_getElem?_getD, List.getElem?_eq_getElem h] at h2
    simp only [Option.getD_some] at h2
    cases hi : s.items[i] with
    | none => rw [hi] at h2; simp at h2
    | some it => rw [hi] at h2; exact ⟨it, by rw [List.getElem?_eq_getElem h, hi], h2⟩
  · rintro ⟨it, h, h2⟩
    have hlt : i < s.items.length := (List.getElem?_eq_some_iff.1 h).1
    refine ⟨hlt, ?_⟩
    rw [List.getD_eq_getElem?_getD, h]
    exact h2

/-- The items stored under `v`. -/
def ltodo (s : LState) (v : Nat) : List Nat := (s.track.filter (fun e => e.1 == v)).map (·.2)

theorem ltodo_length (s : LState) (v : Nat) : (ltodo s v).length = lcount s v := by simp [ltodo, lcount]

theorem mem_ltodo {s : LState} {v i : Nat} : i ∈ ltodo s v ↔ (v, i) ∈ s.track := by
  unfold ltodo
  simp only [List.mem_map, List.mem_filter, beq_iff_eq]
  constructor
  · rintro ⟨⟨a, b⟩, ⟨h, rfl⟩, rfl⟩; exact h
  · intro h; exact ⟨(v, i), ⟨h, rfl⟩, rfl⟩

theorem ltodo_nodup {s : LState} (h : s.track.Nodup) (v : Nat) : (ltodo s v).Nodup := by
  unfold ltodo
  refine List.Nodup.map_on ?_ (h.filter _)
  rintro ⟨a, b⟩ ha ⟨c, d⟩ hc (rfl : b = d)
  simp only [List.mem_filter, beq_iff_eq] at ha hc
  rw [ha.2, hc.2]

/-- What the tests establish: the item says `pos ≤ neg`, the domains are the same, `neg` is not to be kept and not
declared with a right hand side, and it occurs in this item and in those stored under it only. -/
structure Situation (E : LEnv) (s : LState) (e : Nat × Nat) (neg pos : Nat) : Prop where
  item : ∃ a0 x0 a1 x1, s.items[e.2]? = some (some (.lin [(a0, x0), (a1, x1)] 0)) ∧ a0 = -a1 ∧ a0 ≠ 0 ∧
    ((a0 < 0 ∧ x0 = .id neg ∧ x1 = .id pos) ∨ (0 < a0 ∧ x0 = .id pos ∧ x1 = .id neg))
  ne : pos ≠ neg
  dom : E.dom pos = E.dom neg
  keep : E.keep neg = false
  rhs : ∀ n, some (.other n) ∈ s.items → E.sig.decl n ≠ some neg
  notin : e.2 ∉ ltodo s neg
  occ : ∀ i ∈ loccSet E.sig s neg, i = e.2 ∨ i ∈ ltodo s neg

theorem eqBounds_id {E : LEnv} {a b : Nat} (h : eqBounds E (.id a) (.id b) = true) : E.dom a = E.dom b := by
  unfold eqBounds at h
  simp only [bounds] at h
  split at h
  · rename_i h1 h2
    simp only [decide_eq_true_eq] at h
    rw [h1, h2, h]
  · rename_i h1 h2; rw [h1, h2]
  · cases h

theorem situationLe {E : LEnv} {s : LState} {e : Nat × Nat} {neg pos : Nat} (hs : LSound s) (he : e ∈ s.track)
    (h : target E s e = .pair neg pos) : Situation E s e neg pos := by
  unfold target at h
  split at h
  · rename_i a0 x0 a1 x1 c hi
    split at h
    · rename_i hc
      obtain ⟨rfl, ha, hb⟩ := hc
      have hk : e.1 ∈ (LItem.lin [(a0, x0), (a1, x1)] 0).keys := by
        obtain ⟨it, h1, h2⟩ := hs.mem e.1 e.2 he
        rw [hi] at h1
        cases h1
        exact h2
      have hne0 : a0 ≠ 0 := by
        obtain ⟨t, ht, -, hp⟩ := keys_pos hk
        simp only [List.mem_cons, List.not_mem_nil, or_false] at ht
        rcases ht with rfl | rfl <;> dsimp only at hp <;> omega
      split at h
      · rename_i n hn
        split at h
        · cases h
        · rename_i hr
          split at h
          · rename_i hcan
            split at h
            · rename_i p hp
              split at h
              · cases h
              · rename_i hpn
                cases h
                have hform : (a0 < 0 ∧ x0 = .id neg ∧ x1 = .id pos) ∨ (0 < a0 ∧ x0 = .id pos ∧ x1 = .id neg) := by
                  by_cases hlt : a0 < a1
                  · rw [if_pos hlt] at hn hp
                    exact Or.inl ⟨by omega, hn, hp⟩
                  · rw [if_neg hlt] at hn hp
                    exact Or.inr ⟨by omega, hp, hn⟩
                have hdom : E.dom pos = E.dom neg := by
                  rcases hform with ⟨-, rfl, rfl⟩ | ⟨-, rfl, rfl⟩
                  · exact (eqBounds_id hb).symm
                  · exact eqBounds_id hb
                simp only [canCompressLe, Bool.and_eq_true, Bool.not_eq_true', decide_eq_true_eq] at hcan
                have hnot : e.2 ∉ ltodo s neg := by
                  intro hm
                  obtain ⟨it, h1, h2⟩ := hs.mem neg e.2 (mem_ltodo.1 hm)
                  rw [hi] at h1
                  cases h1
                  obtain ⟨t, ht, htn, htp⟩ := keys_pos h2
                  simp only [List.mem_cons, List.not_mem_nil, or_false] at ht
                  rcases hform with ⟨hlt, rfl, rfl⟩ | ⟨hlt, rfl, rfl⟩ <;>
                    rcases ht with rfl | rfl <;> dsimp only at htn htp
                  · omega
                  · simp only [Atom.id.injEq] at htn; exact hpn htn
                  · simp only [Atom.id.injEq] at htn; exact hpn htn
                  · omega
                refine ⟨⟨a0, x0, a1, x1, hi, ha, hne0, hform⟩, hpn, hdom, hcan.1.1, ?_, hnot, ?_⟩
                · intro m hm hd
                  apply hr
                  unfold hasRhs
                  rw [List.any_eq_true]
                  exact ⟨_, hm, by simp [hd]⟩
                · have hsub : insert e.2 (ltodo s neg).toFinset ⊆ loccSet E.sig s neg := by
                    intro i hii
                    rw [Finset.mem_insert, List.mem_toFinset] at hii
                    rcases hii with rfl | hii
                    · refine mem_loccSet.2 ⟨_, hi, ?_⟩
                      simp only [LItem.mentions, decide_eq_true_eq, List.map_cons, List.map_nil, List.mem_cons,
                        List.not_mem_nil, or_false]
                      rcases hform with ⟨-, rfl, rfl⟩ | ⟨-, rfl, rfl⟩
                      · exact Or.inl rfl
                      · exact Or.inr rfl
                    · obtain ⟨it, h1, h2⟩ := hs.mem neg i (mem_ltodo.1 hii)
                      exact mem_loccSet.2 ⟨it, h1, keys_mentions_le h2⟩
                  have hcard : (loccSet E.sig s neg).card ≤ (insert e.2 (ltodo s neg).toFinset).card := by
                    rw [← loccurrences_card, hcan.2, Finset.card_insert_of_notMem (by simpa using hnot),
                      List.toFinset_card_of_nodup (ltodo_nodup hs.nodup neg), ltodo_length]
                  have heq := Finset.eq_of_subset_of_card_le hsub hcard
                  intro i hii
                  rw [← heq, Finset.mem_insert, List.mem_toFinset] at hii
                  exact hii
            · cases h
          · cases h
      · cases h
    · cases h
  · cases h
  · cases h

/-! ## Solutions -/

theorem item_le {E : LEnv} {s : LState} {e : Nat × Nat} {neg pos : Nat} (hst : Situation E s e neg pos) {I : LInterp}
    (ρ : Atom → Int) {it : LItem} (hi : s.items[e.2]? = some (some it)) :
    it.Holds I ρ ↔ ρ (.id pos) ≤ ρ (.id neg) := by
  obtain ⟨a0, x0, a1, x1, h, ha, hne, hform⟩ := hst.item
  rw [hi] at h
  cases h
  simp only [LItem.Holds, Linear.sum, List.map_cons, List.map_nil, List.sum_cons, List.sum_nil, add_zero]
  rcases hform with ⟨hlt, rfl, rfl⟩ | ⟨hlt, rfl, rfl⟩ <;> simp only [Linear.Atom.eval]
  · have ha1 : a1 = -a0 := by omega
    subst ha1
    constructor
    · intro h
      by_contra hcon
      have : 0 < (-a0) * (ρ (.id pos) - ρ (.id neg)) := Int.mul_pos (by omega) (by omega)
      rw [Int.mul_sub] at this
      have h2 : -a0 * ρ (.id neg) = -(a0 * ρ (.id neg)) := Int.neg_mul _ _
      omega
    · intro h
      have : 0 ≤ (-a0) * (ρ (.id neg) - ρ (.id pos)) := Int.mul_nonneg (by omega) (by omega)
      rw [Int.mul_sub] at this
      have h2 : -a0 * ρ (.id neg) = -(a0 * ρ (.id neg)) := Int.neg_mul _ _
      omega
  · have ha1 : a1 = -a0 := by omega
    subst ha1
    have h2 : -a0 * ρ (.id neg) = -(a0 * ρ (.id neg)) := Int.neg_mul _ _
    constructor
    · intro h
      by_contra hcon
      have : 0 < a0 * (ρ (.id pos) - ρ (.id neg)) := Int.mul_pos (by omega) (by omega)
      rw [Int.mul_sub] at this
      omega
    · intro h
      have : 0 ≤ a0 * (ρ (.id neg) - ρ (.id pos)) := Int.mul_nonneg (by omega) (by omega)
      rw [Int.mul_sub] at this
      omega

/-- A solution is still one if the smaller variable is put for the larger one in an inequality stored under the larger
one. -/
theorem replaced_fwd {s : LState} (hn : Normalised s) {neg pos i : Nat} {ts : List (Int × Atom)} {c : Int}
    (hi : s.items[i]? = some (some (.lin ts c))) (hk : neg ∈ (LItem.lin ts c).keys) {ρ : Atom → Int}
    (hle : ρ (.id pos) ≤ ρ (.id neg)) (h : Linear.sum ρ ts ≤ c) :
    Linear.sum (setl ρ neg (ρ (.id pos))) ts ≤ c := by
  have := sum_le (ρ := setl ρ neg (ρ (.id pos))) (τ := ρ) (y := neg) (fun a ha => by simp [setl, ha])
    (by simpa [setl] using hle) ts (all_pos hk (hn ts c (List.mem_of_getElem? hi)).2.2)
  omega

theorem stepLe_sol {I : LInterp} {E : LEnv} (hE : ∀ ts, SortedIdx ts (E.sorter ts)) (hI : LRespects I E.sig)
    {s s' : LState} {e : Nat × Nat} (hs : LSound s) (hn : Normalised s) (he : e ∈ s.track)
    (h : iterationLe E s e = .next s') :
    ∃ y, E.keep y = false ∧ (∀ ρ, s.Sol I E ρ → s'.Sol I E ρ) ∧ ∀ ρ, s'.Sol I E ρ → ∃ b, s.Sol I E (setl ρ y b) := by
  unfold iterationLe at h
  split at h
  · cases h
  · cases h
  · cases h
  rename_i neg pos ht
  have hst := situationLe hs he ht
  refine ⟨neg, hst.keep, ?_⟩
  unfold compressLe at h
  dsimp only at h
  split at h
  · rename_i s2 hall
    cases h
    obtain ⟨k0, k1, k2⟩ := replaceAll_next _ _ _ hall (ltodo_nodup hs.nodup neg)
    dsimp only at k0 k1 k2
    have htodo : ∀ i ∈ ltodo s neg, ∃ it, s.items[i]? = some (some it) ∧ neg ∈ it.keys := fun i hi =>
      hs.mem neg i (mem_ltodo.1 hi)
    obtain ⟨it0, hit0⟩ : ∃ it0, s.items[e.2]? = some (some it0) := by
      obtain ⟨a0, x0, a1, x1, h, -⟩ := hst.item
      exact ⟨_, h⟩
    have hlt0 := (List.getElem?_eq_some_iff.1 hit0).1
    constructor
    · intro ρ hρ
      refine ⟨hρ.1, fun it hit => ?_⟩
      obtain ⟨j, hj⟩ := List.mem_iff_getElem?.1 hit
      dsimp only at hj
      have hje : j ≠ e.2 := by
        rintro rfl
        rw [List.getElem?_set_self (by omega)] at hj
        cases hj
      rw [List.getElem?_set_ne (fun h => hje h.symm)] at hj
      have hle : ρ (.id pos) ≤ ρ (.id neg) := (item_le hst ρ hit0).1 (hρ.2 _ (List.mem_of_getElem? hit0))
      by_cases hT : j ∈ ltodo s neg
      · obtain ⟨ts, c, a1, a2⟩ := k2 j hT
        obtain ⟨it1, b1, b2⟩ := htodo j hT
        rw [a1] at b1
        cases b1
        rcases a2 with ⟨-, a3⟩ | ⟨ts2, c2, a2, a3⟩
        · rw [a3] at hj; cases hj
        · rw [a3] at hj
          cases hj
          have := (replaceLin_holds hE a2 ρ).2 (replaced_fwd hn a1 b2 hle (hρ.2 _ (List.mem_of_getElem? a1)))
          exact this
      · rw [k1 j hT] at hj
        exact hρ.2 _ (List.mem_of_getElem? hj)
    · intro ρ hρ
      refine ⟨ρ (.id pos), ?_, ?_⟩
      · intro v l hv
        by_cases hvn : v = neg
        · subst hvn
          simp only [setl, if_true]
          exact hρ.1 pos l (by rw [hst.dom]; exact hv)
        · simp only [setl, Atom.id.injEq, hvn, if_false]
          exact hρ.1 v l hv
      · intro it hit
        obtain ⟨i, hi⟩ := List.mem_iff_getElem?.1 hit
        by_cases hie : i = e.2
        · subst hie
          rw [item_le hst _ hi]
          simp [setl, hst.ne]
        · by_cases hT : i ∈ ltodo s neg
          · obtain ⟨ts, c, a1, a2⟩ := k2 i hT
            rw [hi] at a1
            cases a1
            rcases a2 with ⟨a2, -⟩ | ⟨ts2, c2, a2, a3⟩
            · exact (replaceLin_holds hE a2 ρ).1 trivial
            · refine (replaceLin_holds hE a2 ρ).1 ?_
              have := hρ.2 (.lin ts2 c2) (List.mem_iff_getElem?.2 ⟨i, by
                dsimp only; rw [List.getElem?_set_ne (fun h => hie h.symm)]; exact a3⟩)
              exact this
          · have hh : it.Holds I ρ := hρ.2 it (List.mem_iff_getElem?.2 ⟨i, by
              dsimp only; rw [List.getElem?_set_ne (fun h => hie h.symm), k1 i hT]; exact hi⟩)
            have hm : it.mentions E.sig neg = false := by
              by_contra hcon
              rcases hst.occ i (mem_loccSet.2 ⟨it, hi, by simpa using hcon⟩) with h | h
              · exact hie h
              · exact hT h
            have hne : ∀ a, a ≠ .id neg → ρ a = setl ρ neg (ρ (.id pos)) a := fun a ha => by simp [setl, ha]
            cases it with
            | lin ts c =>
              simp only [LItem.mentions, decide_eq_false_iff_not] at hm
              simp only [LItem.Holds] at hh ⊢
              rw [← sum_congr hne ts hm]; exact hh
            | other n =>
              simp only [LItem.mentions, decide_eq_false_iff_not] at hm
              refine hI n ρ _ (fun v hv => hne _ ?_) (fun a ha => hne a (ha neg)) hh
              intro hvn
              simp only [Atom.id.injEq] at hvn
              subst hvn
              rcases hv with hv | hv
              · exact hm hv
              · exact hst.rhs n hit hv
  · rename_i hne
    exact absurd h (hne s')

theorem stepLe_unsat {I : LInterp} {E : LEnv} (hE : ∀ ts, SortedIdx ts (E.sorter ts))
    {s : LState} {e : Nat × Nat} (hs : LSound s) (hn : Normalised s) (he : e ∈ s.track)
    (h : iterationLe E s e = .unsat) (ρ : Atom → Int) : ¬ s.Sol I E ρ := by
  intro hρ
  unfold iterationLe at h
  split at h
  · cases h
  · cases h
  · cases h
  rename_i neg pos ht
  have hst := situationLe hs he ht
  unfold compressLe at h
  dsimp only at h
  split at h
  · cases h
  · obtain ⟨i, hi, ts, c, a1, a2⟩ := replaceAll_unsat _ _ h (ltodo_nodup hs.nodup neg)
    dsimp only at a1
    obtain ⟨it1, b1, b2⟩ := hs.mem neg i (mem_ltodo.1 hi)
    rw [a1] at b1
    cases b1
    obtain ⟨it0, hit0⟩ : ∃ it0, s.items[e.2]? = some (some it0) := by
      obtain ⟨a0, x0, a1, x1, h, -⟩ := hst.item
      exact ⟨_, h⟩
    have hle : ρ (.id pos) ≤ ρ (.id neg) := (item_le hst ρ hit0).1 (hρ.2 _ (List.mem_of_getElem? hit0))
    exact (replaceLin_holds hE a2 ρ).2 (replaced_fwd hn a1 b2 hle (hρ.2 _ (List.mem_of_getElem? a1)))

/-! ## The multimap -/

theorem merge_normal {x : Nat → Atom} : ∀ (is : List Nat) (cur : Nat) (c : Nat → Int) (d : Int),
    (cur :: is).Pairwise (fun i j => x i ≠ x j) → (∀ i ∈ is, ∀ v, x i ≠ .lit v) →
    Linear.merge x cur is c d = .ok (c, d) := by
  intro is
  induction is with
  | nil => intro cur c d _ _; rfl
  | cons i is ih =>
    intro cur c d hp hl
    rw [List.pairwise_cons] at hp
    rw [Linear.merge]
    rw [if_neg (fun h => hp.1 i (by simp) h.symm)]
    have hrec := ih i c d hp.2 (fun j hj => hl j (List.mem_cons_of_mem _ hj))
    cases hx : x i with
    | lit v => exact absurd hx (hl i (by simp) v)
    | id n => exact hrec
    | other r => exact hrec

theorem compact_normal (ts : List (Int × Atom)) (h0 : ∀ t ∈ ts, t.1 ≠ 0) :
    Linear.compact ts.length (fun i => (ts.getD i (0, .lit 0)).2) (fun i => (ts.getD i (0, .lit 0)).1) = ts := by
  unfold Linear.compact
  rw [List.filter_eq_self.2]
  · apply List.ext_getElem
    · simp
    · intro i h1 h2
      simp [List.getElem?_eq_getElem h2]
  · intro i hi
    rw [List.mem_range] at hi
    simp only [ne_eq, decide_not, Bool.not_eq_eq_eq_not, Bool.not_true, decide_eq_false_iff_not]
    rw [List.getD_eq_getElem?_getD, List.getElem?_eq_getElem hi]
    exact h0 _ (List.getElem_mem hi)

/-- `simplify_lin` does not change what is in normal form. -/
theorem simplify_normal {idx : List Nat} {ts : List (Int × Atom)} (hs : SortedIdx ts idx) (h0 : ∀ t ∈ ts, t.1 ≠ 0)
    (h1 : ∀ t ∈ ts, ∀ v, t.2 ≠ .lit v) (h2 : (ts.map Prod.snd).Nodup) (d : Int) :
    simplifyLinIdx idx ts d = .ok (ts, d) := by
  have hlt : ∀ i ∈ idx, i < ts.length := fun i hi => by simpa using (hs.perm.mem_iff.1 hi)
  have hlit : ∀ i ∈ idx, ∀ v, (ts.getD i (0, Atom.lit 0)).2 ≠ .lit v := by
    intro i hi v
    rw [List.getD_eq_getElem?_getD, List.getElem?_eq_getElem (hlt i hi)]
    exact h1 _ (List.getElem_mem _) v
  have hnd : idx.Nodup := hs.perm.nodup_iff.2 List.nodup_range
  have hpair : idx.Pairwise (fun i j => (ts.getD i (0, Atom.lit 0)).2 ≠ (ts.getD j (0, Atom.lit 0)).2) := by
    refine List.Pairwise.imp_of_mem ?_ hnd
    intro i j hi hj hij heq
    rw [List.getD_eq_getElem?_getD, List.getElem?_eq_getElem (hlt i hi),
      List.getD_eq_getElem?_getD, List.getElem?_eq_getElem (hlt j hj)] at heq
    simp only [Option.getD_some] at heq
    have hi' : i < (ts.map Prod.snd).length := by simpa using hlt i hi
    have hj' : j < (ts.map Prod.snd).length := by simpa using hlt j hj
    exact hij ((h2.getElem_inj_iff (hi := hi') (hj := hj')).1 (by simpa using heq))
  unfold simplifyLinIdx
  dsimp only
  cases idx with
  | nil =>
    have : ts = [] := by
      have := hs.perm.length_eq
      simpa using this.symm
    subst this
    rfl
  | cons cur is =>
    have hf : Linear.foldLits (fun i => (ts.getD i (0, Atom.lit 0)).2) (cur :: is)
        (fun i => (ts.getD i (0, Atom.lit 0)).1) d = .ok ((fun i => (ts.getD i (0, Atom.lit 0)).1), d, cur :: is) := by
      rw [Linear.foldLits]
      cases hx : (ts.getD cur (0, Atom.lit 0)).2 with
      | lit v => exact absurd hx (hlit cur (by simp) v)
      | id n => rfl
      | other r => rfl
    rw [hf, Res.ok_bind]
    dsimp only
    rw [merge_normal is cur _ d hpair (fun i hi => hlit i (List.mem_cons_of_mem _ hi)), Res.ok_bind]
    dsimp only
    rw [compact_normal ts h0]

theorem rename_normal {old new : Nat} {ts : List (Int × Atom)} (h0 : ∀ t ∈ ts, t.1 ≠ 0)
    (h1 : ∀ t ∈ ts, ∀ v, t.2 ≠ .lit v) (h2 : (ts.map Prod.snd).Nodup) (hf : Atom.id new ∉ ts.map Prod.snd) :
    (∀ t ∈ ts.map (renameTerm old new), t.1 ≠ 0) ∧ (∀ t ∈ ts.map (renameTerm old new), ∀ v, t.2 ≠ .lit v) ∧
    ((ts.map (renameTerm old new)).map Prod.snd).Nodup := by
  refine ⟨?_, ?_, ?_⟩
  · intro t ht
    obtain ⟨u, hu, rfl⟩ := List.mem_map.1 ht
    exact h0 u hu
  · intro t ht v
    obtain ⟨u, hu, rfl⟩ := List.mem_map.1 ht
    simp only [renameTerm]
    split
    · simp
    · exact h1 u hu v
  · rw [List.map_map]
    have : (Prod.snd ∘ renameTerm old new) = (fun a => if a = Atom.id old then Atom.id new else a) ∘ Prod.snd := rfl
    rw [this, ← List.map_map]
    refine List.Nodup.map_on ?_ h2
    intro a ha b hb hab
    split at hab <;> split at hab
    · rename_i x y; rw [x, y]
    · rw [← hab] at hb; exact absurd hb hf
    · rw [hab] at ha; exact absurd ha hf
    · exact hab

theorem replaceLin_fresh {E : LEnv} (hE : ∀ ts, SortedIdx ts (E.sorter ts)) {old new : Nat} {ts : List (Int × Atom)}
    {c : Int} (h0 : ∀ t ∈ ts, t.1 ≠ 0) (h1 : ∀ t ∈ ts, ∀ v, t.2 ≠ .lit v) (h2 : (ts.map Prod.snd).Nodup)
    (hf : Atom.id new ∉ ts.map Prod.snd) (hne : ts ≠ []) {r : Replaced} (h : replaceLin E old new ts c = .ok r) :
    r = .lin (ts.map (renameTerm old new)) c := by
  obtain ⟨a, b, d⟩ := rename_normal (old := old) h0 h1 h2 hf
  unfold replaceLin at h
  dsimp only at h
  rw [simplify_normal (hE _) a b d 0, Res.ok_bind] at h
  dsimp only at h
  rw [if_neg (by simpa using hne), Res.bind_eq_ok] at h
  obtain ⟨c2, h3, h4⟩ := h
  cases h4
  have := (safeMinus_ok h3).1
  rw [this, Int.sub_zero]

theorem filter_single {ts : List (Int × Atom)} {a : Atom} (hnd : (ts.map Prod.snd).Nodup) :
    (ts.filter (fun t => t.2 = a)).length ≤ 1 := by
  induction ts with
  | nil => simp
  | cons t ts ih =>
    rw [List.map_cons, List.nodup_cons] at hnd
    by_cases h : t.2 = a
    · have : ts.filter (fun t => t.2 = a) = [] := by
        rw [List.filter_eq_nil_iff]
        intro u hu huv
        simp only [decide_eq_true_eq] at huv
        exact hnd.1 (List.mem_map.2 ⟨u, hu, by rw [huv, h]⟩)
      rw [List.filter_cons, if_pos (by simpa using h), this]
      simp
    · rw [List.filter_cons, if_neg (by simpa using h)]
      exact ih hnd.2

/-- While the items of `y` are processed. -/
structure LMid (y : Nat) (s : LState) : Prop where
  nodup : s.track.Nodup
  mem : ∀ v i, (v, i) ∈ s.track → ∃ it, s.items[i]? = some (some it) ∧ v ∈ it.keys
  gone : ∀ i, (y, i) ∉ s.track

theorem mid_replaceAll {E : LEnv} (hE : ∀ ts, SortedIdx ts (E.sorter ts)) {neg pos : Nat} (hne : pos ≠ neg) :
    ∀ (T : List Nat) (s s' : LState), LMid neg s → T.Nodup → replaceAll E neg pos s T = .next s' →
    (∀ i ∈ T, ∀ ts c, s.items[i]? = some (some (.lin ts c)) → neg ∈ (LItem.lin ts c).keys ∧
      (∀ t ∈ ts, t.1 ≠ 0) ∧ (∀ t ∈ ts, ∀ v, t.2 ≠ .lit v) ∧ (ts.map Prod.snd).Nodup ∧
      Atom.id pos ∉ ts.map Prod.snd) → LMid neg s' := by
  intro T
  induction T with
  | nil =>
    intro s s' h _ hr _
    simp only [replaceAll, LOutcome.next.injEq] at hr
    subst hr; exact h
  | cons i T ih =>
    intro s s' h hnd hr hT
    have hnd' := List.nodup_cons.1 hnd
    simp only [replaceAll] at hr
    split at hr
    · rename_i ts c hi
      have hlt := (List.getElem?_eq_some_iff.1 hi).1
      obtain ⟨hk, h0, h1, h2, hf⟩ := hT i (by simp) ts c hi
      have hne' : ts ≠ [] := by rintro rfl; simp [LItem.keys] at hk
      have hmem : ∀ v, (v, i) ∈ s.track → v ∈ (LItem.lin ts c).keys := by
        intro v hv
        obtain ⟨it', a, b⟩ := h.mem v i hv
        rw [hi] at a
        cases a
        exact b
      split at hr
      · cases hr
      · rename_i hrl
        have := replaceLin_fresh hE h0 h1 h2 hf hne' hrl
        cases this
      · rename_i ts2 c2 hrl
        have hts := replaceLin_fresh hE h0 h1 h2 hf hne' hrl
        simp only [Replaced.lin.injEq] at hts
        obtain ⟨rfl, rfl⟩ := hts
        refine ih _ s' ?_ hnd'.2 hr ?_
        · have hold : ∀ v, (v, i) ∈ s.track → v ∈ (LItem.lin (ts.map (renameTerm neg pos)) c2).keys := by
            intro v hv
            obtain ⟨t, ht, htv, htp⟩ := keys_pos (hmem v hv)
            refine keys_of_pos (List.mem_map.2 ⟨t, ht, rfl⟩) ?_ htp
            simp only [renameTerm]
            rw [if_neg]
            · exact htv
            · rw [htv]
              intro hcon
              simp only [Atom.id.injEq] at hcon
              subst hcon
              exact h.gone i hv
          have hnp : (pos, i) ∉ s.track := by
            intro hv
            obtain ⟨t, ht, htv, -⟩ := keys_pos (hmem pos hv)
            exact hf (List.mem_map.2 ⟨t, ht, htv⟩)
          refine ⟨?_, ?_, ?_⟩
          · dsimp only
            rw [List.nodup_append]
            refine ⟨h.nodup, ?_, ?_⟩
            · have hlen := filter_single (a := Atom.id pos) (rename_normal (old := neg) h0 h1 h2 hf).2.2
              generalize (ts.map (renameTerm neg pos)).filter (fun t => t.2 = Atom.id pos) = l at hlen
              match l, hlen with
              | [], _ => simp
              | [a], _ => simp
            · intro a ha b hb hab
              subst hab
              obtain ⟨u, -, rfl⟩ := List.mem_map.1 hb
              exact hnp ha
          · intro v j hv
            dsimp only at hv ⊢
            rw [List.mem_append] at hv
            rcases hv with hv | hv
            · by_cases hji : j = i
              · subst hji
                exact ⟨_, List.getElem?_set_self hlt, hold v hv⟩
              · rw [List.getElem?_set_ne (fun h => hji h.symm)]
                exact h.mem v j hv
            · obtain ⟨u, hu, hvj⟩ := List.mem_map.1 hv
              simp only [Prod.mk.injEq] at hvj
              obtain ⟨rfl, rfl⟩ := hvj
              refine ⟨_, List.getElem?_set_self hlt, ?_⟩
              obtain ⟨t, ht, htv, htp⟩ := keys_pos hk
              refine keys_of_pos (List.mem_map.2 ⟨t, ht, rfl⟩) ?_ htp
              simp [renameTerm, htv]
          · intro j hv
            dsimp only at hv
            rw [List.mem_append] at hv
            rcases hv with hv | hv
            · exact h.gone j hv
            · obtain ⟨u, hu, hvj⟩ := List.mem_map.1 hv
              simp only [Prod.mk.injEq] at hvj
              exact hne hvj.1
        · intro j hj ts' c' hj'
          have hji : i ≠ j := fun h => hnd'.1 (h ▸ hj)
          dsimp only at hj'
          rw [List.getElem?_set_ne hji] at hj'
          exact hT j (List.mem_cons_of_mem _ hj) ts' c' hj'
      · cases hr
      · cases hr
    · cases hr

theorem stepLe_sound {E : LEnv} (hE : ∀ ts, SortedIdx ts (E.sorter ts)) {s s' : LState} {e : Nat × Nat} {neg pos : Nat}
    (hs : LSound s) (hn : Normalised s) (he : e ∈ s.track) (ht : target E s e = .pair neg pos) (hf : Fresh s neg pos)
    (h : iterationLe E s e = .next s') : LSound s' := by
  have hst := situationLe hs he ht
  unfold iterationLe at h
  rw [ht] at h
  simp only [compressLe] at h
  split at h
  · rename_i s2 hall
    cases h
    obtain ⟨k0, k1, k2⟩ := replaceAll_next _ _ _ hall (ltodo_nodup hs.nodup neg)
    dsimp only at k0 k1 k2
    have hstart : LMid neg { s with track := s.track.filter (fun e => e.1 != neg) } := by
      refine ⟨hs.nodup.filter _, ?_, ?_⟩
      · intro v i hv
        exact hs.mem v i (List.mem_filter.1 hv).1
      · intro i hi
        have := (List.mem_filter.1 hi).2
        simp at this
    have hmid := mid_replaceAll hE hst.ne _ _ s2 hstart (ltodo_nodup hs.nodup neg) hall (by
      intro i hi ts c hic
      dsimp only at hic
      have hn' := hn ts c (List.mem_of_getElem? hic)
      obtain ⟨it, a, b⟩ := hs.mem neg i (mem_ltodo.1 hi)
      rw [hic] at a
      cases a
      exact ⟨b, hn'.1, hn'.2.1, hn'.2.2, hf i ts c (mem_ltodo.1 hi) hic⟩)
    refine ⟨hmid.nodup.erase _, ?_⟩
    intro v i hv
    dsimp only at hv ⊢
    obtain ⟨it, h1, h2⟩ := hmid.mem v i (List.mem_of_mem_erase hv)
    by_cases hie : i = e.2
    · exfalso
      subst hie
      rw [k1 _ hst.notin] at h1
      obtain ⟨a0, x0, a1, x1, hi, ha, hne, hform⟩ := hst.item
      rw [hi] at h1
      cases h1
      have hk1 : ∀ w, w ∈ (LItem.lin [(a0, x0), (a1, x1)] 0).keys → w = pos := by
        intro w hw
        obtain ⟨t, ht, htw, htp⟩ := keys_pos hw
        simp only [List.mem_cons, List.not_mem_nil, or_false] at ht
        rcases hform with ⟨hlt, rfl, rfl⟩ | ⟨hlt, rfl, rfl⟩ <;>
          rcases ht with rfl | rfl <;> dsimp only at htw htp
        · omega
        · simp only [Atom.id.injEq] at htw; exact htw.symm
        · simp only [Atom.id.injEq] at htw; exact htw.symm
        · omega
      have he1 : e.1 = pos := by
        obtain ⟨it, c1, c2⟩ := hs.mem e.1 e.2 he
        rw [hi] at c1
        cases c1
        exact hk1 _ c2
      have : (v, e.2) = e := by rw [hk1 v h2, ← he1]
      rw [this, hmid.nodup.mem_erase_iff] at hv
      exact hv.1 rfl
    · exact ⟨it, by rw [List.getElem?_set_ne (fun h => hie h.symm)]; exact h1, h2⟩
  · rename_i hne
    exact absurd h (hne s')

theorem stepLe_normalised {E : LEnv} (hE : ∀ ts, SortedIdx ts (E.sorter ts)) {s s' : LState} {e : Nat × Nat}
    (hs : LSound s) (hn : Normalised s) (he : e ∈ s.track) (h : iterationLe E s e = .next s') : Normalised s' := by
  unfold iterationLe at h
  split at h
  · cases h
  · cases h
  · cases h
  rename_i neg pos ht
  have hst := situationLe hs he ht
  simp only [compressLe] at h
  split at h
  · rename_i s2 hall
    cases h
    obtain ⟨k0, k1, k2⟩ := replaceAll_next _ _ _ hall (ltodo_nodup hs.nodup neg)
    dsimp only at k0 k1 k2
    intro ts c hit
    obtain ⟨j, hj⟩ := List.mem_iff_getElem?.1 hit
    dsimp only at hj
    have hlt : j < s2.items.length := by
      have := (List.getElem?_eq_some_iff.1 hj).1
      simpa using this
    have hje : j ≠ e.2 := by
      rintro rfl
      rw [List.getElem?_set_self hlt] at hj
      cases hj
    rw [List.getElem?_set_ne (fun h => hje h.symm)] at hj
    by_cases hT : j ∈ ltodo s neg
    · obtain ⟨ts0, c0, a1, ⟨-, a3⟩ | ⟨ts2, c2, a2, a3⟩⟩ := k2 j hT
      · rw [a3] at hj; cases hj
      · rw [a3] at hj
        cases hj
        unfold replaceLin at a2
        dsimp only at a2
        rw [Res.bind_eq_ok] at a2
        obtain ⟨⟨ts2, d⟩, h1, h2⟩ := a2
        dsimp only at h2
        split at h2
        · split at h2 <;> cases h2
        · rw [Res.bind_eq_ok] at h2
          obtain ⟨c3, -, h4⟩ := h2
          cases h4
          exact C12_normal _ _ _ _ _ (hE _) h1
    · rw [k1 j hT] at hj
      exact hn ts c (List.mem_of_getElem? hj)
  · rename_i hne
    exact absurd h (hne s')

theorem runLe_sol {I : LInterp} {E : LEnv} (hE : ∀ ts, SortedIdx ts (E.sorter ts)) (hI : LRespects I E.sig)
    {s s' : LState} (hr : RunLe E s s') : LSound s → Normalised s → ∀ ρ, s.Extends I E ρ ↔ s'.Extends I E ρ := by
  induction hr with
  | done s => intro _ _ ρ; exact Iff.rfl
  | step s s1 s2 e neg pos he ht h hf hr ih =>
    intro hs hn ρ
    rw [← ih (stepLe_sound hE hs hn he ht hf h) (stepLe_normalised hE hs hn he h) ρ]
    obtain ⟨y, hy, h1, h2⟩ := stepLe_sol hE hI hs hn he h
    constructor
    · rintro ⟨τ, ht, hsol⟩; exact ⟨τ, ht, h1 τ hsol⟩
    · rintro ⟨τ, ht, hsol⟩
      obtain ⟨b, hb⟩ := h2 τ hsol
      refine ⟨_, fun v hv => ?_, hb⟩
      have hvy : v ≠ y := by rintro rfl; rw [hy] at hv; cases hv
      simp [setl, hvy, ht v hv]

theorem startLe_track (items : List LItem) (v i : Nat) :
    (v, i) ∈ (startLe items).track ↔ ∃ it, items[i]? = some it ∧ v ∈ it.keys := by
  simp only [startLe, List.mem_flatten, List.mem_map, Prod.exists]
  constructor
  · rintro ⟨l, ⟨it, j, hm, rfl⟩, h⟩
    rw [List.mk_mem_zipIdx_iff_getElem?] at hm
    simp only [List.mem_map, Prod.mk.injEq] at h
    obtain ⟨a, ha, rfl, rfl⟩ := h
    exact ⟨it, hm, ha⟩
  · rintro ⟨it, h1, h2⟩
    exact ⟨_, ⟨it, i, List.mk_mem_zipIdx_iff_getElem?.2 h1, rfl⟩, List.mem_map.2 ⟨v, h2, rfl⟩⟩

theorem lin_keys_nodup {ts : List (Int × Atom)} (h : (ts.map Prod.snd).Nodup) (c : Int) :
    (LItem.lin ts c).keys.Nodup := by
  simp only [LItem.keys]
  induction ts with
  | nil => simp
  | cons t ts ih =>
    rw [List.map_cons, List.nodup_cons] at h
    rw [List.filterMap_cons]
    split
    · exact ih h.2
    · rename_i v hv
      rw [List.nodup_cons]
      refine ⟨fun hm => ?_, ih h.2⟩
      obtain ⟨u, hu, huv, -⟩ := keys_pos (c := c) hm
      have htv : t.2 = .id v := by
        obtain ⟨a, x⟩ := t
        cases x with
        | id w =>
          simp only [termKey] at hv
          split at hv <;> cases hv
          rfl
        | lit _ => simp [termKey] at hv
        | other _ => simp [termKey] at hv
      exact h.1 (List.mem_map.2 ⟨u, hu, by rw [huv, htv]⟩)

theorem startLe_sound {items : List LItem} (hc : Normalised (startLe items)) : LSound (startLe items) := by
  refine ⟨?_, ?_⟩
  · have hk : ∀ it ∈ items, it.keys.Nodup := by
      intro it hit
      cases it with
      | lin ts c => exact lin_keys_nodup (hc ts c (by simpa [startLe] using hit)).2.2 c
      | other n => simp [LItem.keys]
    have : ∀ (l : List LItem) (n : Nat), (∀ it ∈ l, it.keys.Nodup) →
        (((l.zipIdx n).map fun p => p.1.keys.map (·, p.2)).flatten).Nodup := by
      intro l
      induction l with
      | nil => intro n _; simp
      | cons a l ih =>
        intro n hl
        simp only [List.zipIdx_cons, List.map_cons, List.flatten_cons]
        rw [List.nodup_append]
        refine ⟨(hl a (by simp)).map (fun p q hpq => by simpa using hpq),
          ih (n + 1) (fun it hit => hl it (List.mem_cons_of_mem _ hit)), ?_⟩
        rintro ⟨v, i⟩ h1 e h2 rfl
        simp only [List.mem_map, Prod.mk.injEq] at h1
        obtain ⟨w, -, -, rfl⟩ := h1
        simp only [List.mem_flatten, List.mem_map, Prod.exists] at h2
        obtain ⟨m, ⟨it, j, hm, rfl⟩, h⟩ := h2
        simp only [List.mem_map, Prod.mk.injEq] at h
        obtain ⟨w', -, -, rfl⟩ := h
        have := List.le_snd_of_mem_zipIdx hm
        simp only at this
        omega
    exact this items 0 hk
  · intro v i h
    obtain ⟨it, h1, h2⟩ := (startLe_track items v i).1 h
    exact ⟨it, by simp [startLe, h1], h2⟩

end Chain
end MZ
