import Verif.Chan.Inverse
import Verif.LexOrd.Props

/-! # Sorting -/

namespace MZ.Chan
open MZ.Globals MZ.Chan.Spec

theorem allDiff_inj {p : Arr Int} (h : Count.fznAllDifferentInt p) {i j : Int} (hi : i ∈ p.idx) (hj : j ∈ p.idx) (e : p i = p j) :
    i = j := by
  by_contra hne
  rcases lt_or_gt_of_ne hne with hlt | hlt
  · exact h i hi j hj hlt e
  · exact h j hj i hi hlt e.symm

/-- An injection between index sets of the same size covers the target. -/
theorem covers {I J : Finset Int} {p : Int → Int} (hmem : ∀ i ∈ I, p i ∈ J) (hinj : ∀ i ∈ I, ∀ j ∈ I, p i = p j → i = j)
    (hc : J.card ≤ I.card) : ∀ j ∈ J, ∃ i ∈ I, p i = j := by
  have himg : I.image p = J := by
    apply Finset.eq_of_subset_of_card_le
    · intro j hj
      obtain ⟨i, hi, rfl⟩ := Finset.mem_image.mp hj
      exact hmem i hi
    · rw [Finset.card_image_of_injOn (fun i hi j hj e => hinj i hi j hj e)]
      exact hc
  intro j hj
  rw [← himg] at hj
  obtain ⟨i, hi, e⟩ := Finset.mem_image.mp hj
  exact ⟨i, hi, e⟩

theorem increasing_iff (ys : Arr Int) : LexOrd.increasing ys ↔ ∀ i ∈ ys.idx, ∀ j ∈ ys.idx, i < j → ys i ≤ ys j :=
  C75_increasing ys

theorem times_of_bij {xs ys : Arr Int} {p : Int → Int} (hlen : xs.len = ys.len) (hmem : ∀ i ∈ xs.idx, p i ∈ ys.idx)
    (hinj : ∀ i ∈ xs.idx, ∀ j ∈ xs.idx, p i = p j → i = j) (he : ∀ i ∈ xs.idx, ys (p i) = xs i) (v : Int) :
    times xs v = times ys v := by
  have hcov := covers hmem hinj (by unfold Arr.len at hlen; omega)
  refine Finset.card_bij (fun i _ => p i) ?_ ?_ ?_
  · intro i hi
    rw [Finset.mem_filter] at hi ⊢
    exact ⟨hmem i hi.1, by rw [he i hi.1]; exact hi.2⟩
  · intro i hi j hj e
    exact hinj i (Finset.mem_filter.mp hi).1 j (Finset.mem_filter.mp hj).1 e
  · intro j hj
    rw [Finset.mem_filter] at hj
    obtain ⟨i, hi, rfl⟩ := hcov j hj.1
    exact ⟨i, Finset.mem_filter.mpr ⟨hi, by rw [← he i hi]; exact hj.2⟩, rfl⟩

theorem bij_of_times {xs ys : Arr Int} (h : ∀ v, times xs v = times ys v) :
    ∃ p : Int → Int, (∀ i ∈ xs.idx, p i ∈ ys.idx) ∧ (∀ i ∈ xs.idx, ys (p i) = xs i) ∧
      ∀ i ∈ xs.idx, ∀ j ∈ xs.idx, p i = p j → i = j := by
  classical
  let A := fun v => xs.idx.filter (fun i => xs i = v)
  let B := fun v => ys.idx.filter (fun i => ys i = v)
  let E := fun v : Int => Finset.equivOfCardEq (s := A v) (t := B v) (h v)
  let p : Int → Int := fun i => if hi : i ∈ A (xs i) then (E (xs i) ⟨i, hi⟩ : Int) else 0
  have hA : ∀ i ∈ xs.idx, i ∈ A (xs i) := fun i hi => Finset.mem_filter.mpr ⟨hi, rfl⟩
  have hB : ∀ i ∈ xs.idx, p i ∈ B (xs i) := by
    intro i hi
    show (if hi : i ∈ A (xs i) then (E (xs i) ⟨i, hi⟩ : Int) else 0) ∈ B (xs i)
    rw [dif_pos (hA i hi)]
    exact (E (xs i) ⟨i, hA i hi⟩).2
  refine ⟨p, fun i hi => (Finset.mem_filter.mp (hB i hi)).1, fun i hi => (Finset.mem_filter.mp (hB i hi)).2, ?_⟩
  intro i hi j hj e
  have hv : xs i = xs j := by
    rw [← (Finset.mem_filter.mp (hB i hi)).2, ← (Finset.mem_filter.mp (hB j hj)).2, e]
  have e1 : p i = (E (xs i) ⟨i, hA i hi⟩ : Int) := dif_pos (hA i hi)
  have hj' : j ∈ A (xs i) := hv ▸ hA j hj
  have e2 : p j = (E (xs i) ⟨j, hj'⟩ : Int) := by
    have : ∀ v (hv : xs j = v) (hm : j ∈ A v), p j = (E v ⟨j, hm⟩ : Int) := by
      rintro v rfl hm
      exact dif_pos hm
    exact this _ hv.symm hj'
  rw [e1, e2] at e
  have := (E (xs i)).injective (Subtype.ext e)
  exact congrArg Subtype.val this

theorem sort_iff (xs ys : Arr Int) (hlen : xs.len = ys.len) : ∃ P, sort xs ys = some P ∧ (P ↔ Sorted xs ys) := by
  refine ⟨_, if_pos hlen, ?_⟩
  constructor
  · rintro ⟨p, hlo, hhi, hmem, he, hd, hinc⟩
    have hidx : p.idx = xs.idx := by unfold Arr.idx; rw [hlo, hhi]
    rw [hidx] at hmem
    refine ⟨times_of_bij hlen hmem ?_ he, (increasing_iff ys).mp hinc⟩
    intro i hi j hj e
    exact allDiff_inj hd (by rw [hidx]; exact hi) (by rw [hidx]; exact hj) e
  · rintro ⟨ht, hinc⟩
    obtain ⟨p, h1, h2, h3⟩ := bij_of_times ht
    refine ⟨⟨xs.lo, xs.hi, p⟩, rfl, rfl, h1, h2, ?_, (increasing_iff ys).mpr hinc⟩
    intro i hi j hj hlt e
    have := h3 i hi j hj e
    omega

section
variable {α : Type} [LinearOrder α]

/-- Position in the stable order. -/
def before (xs : Arr α) (a b : Int) : Prop := xs a < xs b ∨ (xs a = xs b ∧ a < b)

theorem before_trans {xs : Arr α} {a b c : Int} (h1 : before xs a b) (h2 : before xs b c) : before xs a c := by
  rcases h1 with h1 | ⟨e1, l1⟩ <;> rcases h2 with h2 | ⟨e2, l2⟩
  · exact .inl (lt_trans h1 h2)
  · exact .inl (e2 ▸ h1)
  · exact .inl (e1 ▸ h2)
  · exact .inr ⟨e1.trans e2, lt_trans l1 l2⟩

theorem chain_before {xs : Arr α} {p : Int → Int} {u : Int}
    (h : ∀ j, 1 ≤ j → j + 1 ≤ u → before xs (p j) (p (j + 1))) :
    ∀ (d : Nat) (j : Int), 1 ≤ j → j + (d : Int) + 1 ≤ u → before xs (p j) (p (j + (d : Int) + 1)) := by
  intro d
  induction d with
  | zero => intro j h1 h2; simpa using h j h1 (by omega)
  | succ d ih =>
    intro j h1 h2
    have a := ih j h1 (by push_cast at h2; omega)
    have b := h (j + (d : Int) + 1) (by omega) (by push_cast at h2; omega)
    have e : j + ((d + 1 : Nat) : Int) + 1 = j + (d : Int) + 1 + 1 := by push_cast; omega
    rw [e]
    exact before_trans a b

theorem argSort_core (xs : Arr α) (p : Arr Int) (hlo : p.lo = 1) (hhi : p.hi = xs.len)
    (hmem : ∀ j ∈ p.idx, p j ∈ xs.idx) : fznArgSort xs p ↔ ArgSort xs p := by
  have hcard : (p.idx.card : Int) = xs.len := by
    unfold Arr.idx
    rw [Int.card_Icc, hlo, hhi]
    unfold Arr.len
    omega
  constructor
  · rintro ⟨hd, hs⟩
    have hinj : ∀ i ∈ p.idx, ∀ j ∈ p.idx, p i = p j → i = j := fun i hi j hj e => allDiff_inj hd hi hj e
    refine ⟨hmem, covers hmem hinj (by unfold Arr.len at hcard; omega), ?_⟩
    have hstep : ∀ j, 1 ≤ j → j + 1 ≤ xs.len → before xs (p j) (p (j + 1)) := by
      intro j h1 h2
      obtain ⟨-, hle, heq⟩ := hs j (Finset.mem_Icc.mpr ⟨h1, by omega⟩)
      rcases lt_or_eq_of_le hle with h | h
      · exact .inl h
      · exact .inr ⟨h, heq h⟩
    intro j hj k hk hlt
    rw [Arr.mem_idx, hlo, hhi] at hj hk
    have := chain_before hstep (k - j - 1).toNat j hj.1 (by omega)
    have e : j + ((k - j - 1).toNat : Int) + 1 = k := by omega
    rw [e] at this
    exact this
  · rintro ⟨-, -, hs⟩
    refine ⟨?_, ?_⟩
    · intro i hi j hj hlt e
      rcases hs i hi j hj hlt with h | ⟨-, h⟩
      · rw [e] at h; exact lt_irrefl _ h
      · omega
    · intro j hj
      rw [Finset.mem_Icc] at hj
      have h1 : j ∈ p.idx := by rw [Arr.mem_idx, hlo, hhi]; omega
      have h2 : j + 1 ∈ p.idx := by rw [Arr.mem_idx, hlo, hhi]; omega
      refine ⟨⟨h1, h2, hmem j h1, hmem _ h2⟩, ?_⟩
      rcases hs j h1 (j + 1) h2 (by omega) with h | ⟨h, h'⟩
      · exact ⟨le_of_lt h, fun e => absurd e (ne_of_lt h)⟩
      · exact ⟨le_of_eq h, fun _ => h'⟩

theorem argSortFn_iff (xs : Arr α) (p : Arr Int) :
    argSortFn xs p ↔ p.lo = 1 ∧ p.hi = xs.len ∧ ArgSort xs p := by
  unfold argSortFn
  constructor
  · rintro ⟨h1, h2, h⟩
    refine ⟨h1, h2, ?_⟩
    rcases h with h | ⟨hm, h⟩
    · have hx := Count.len_zero.mp h
      have hp : p.idx = ∅ := by
        unfold Arr.idx; rw [h1, h2, h]; rfl
      unfold ArgSort
      rw [hx, hp]
      simp
    · exact (argSort_core xs p h1 h2 hm).mp h
  · rintro ⟨h1, h2, h⟩
    exact ⟨h1, h2, .inr ⟨h.1, (argSort_core xs p h1 h2 h.1).mpr h⟩⟩

theorem argSort_pred (xs : Arr α) (p : Arr Int) (h2 : 2 ≤ xs.len) (hlo : p.lo = 1) (hhi : p.hi = xs.len) :
    fznArgSort xs p ↔ ArgSort xs p := by
  constructor
  · intro h
    refine (argSort_core xs p hlo hhi ?_).mp h
    intro j hj
    rw [Arr.mem_idx, hlo, hhi] at hj
    by_cases h1 : j = 1
    · exact (h.2 j (Finset.mem_Icc.mpr (by omega))).1.2.2.1
    · have := (h.2 (j - 1) (Finset.mem_Icc.mpr (by omega))).1.2.2.2
      rwa [show j - 1 + 1 = j by omega] at this
  · intro h
    exact (argSort_core xs p hlo hhi h.1).mpr h

/-- The stable order is a total order of the indices. -/
def stableLe (xs : Arr α) (a b : Int) : Prop := xs a < xs b ∨ (xs a = xs b ∧ a ≤ b)

instance (xs : Arr α) : DecidableRel (stableLe xs) := fun _ _ => inferInstanceAs (Decidable (_ ∨ _))

theorem argSort_exists (xs : Arr α) : ∃ p : Arr Int, argSortFn xs p := by
  classical
  let l := xs.idx.toList.mergeSort (fun a b => decide (stableLe xs a b))
  have hperm : l.Perm xs.idx.toList := List.mergeSort_perm _ _
  have hsorted : l.Pairwise (fun a b => stableLe xs a b) := by
    have := List.pairwise_mergeSort (le := fun a b => decide (stableLe xs a b)) ?_ ?_ xs.idx.toList
    · exact this.imp (by intro a b h; simpa using h)
    · intro a b c h1 h2
      simp only [decide_eq_true_eq] at h1 h2 ⊢
      rcases h1 with h1 | ⟨e1, l1⟩ <;> rcases h2 with h2 | ⟨e2, l2⟩
      · exact .inl (lt_trans h1 h2)
      · exact .inl (e2 ▸ h1)
      · exact .inl (e1 ▸ h2)
      · exact .inr ⟨e1.trans e2, le_trans l1 l2⟩
    · intro a b
      simp only [Bool.or_eq_true, decide_eq_true_eq]
      rcases lt_trichotomy (xs a) (xs b) with h | h | h
      · exact .inl (.inl h)
      · rcases le_total a b with hab | hab
        · exact .inl (.inr ⟨h, hab⟩)
        · exact .inr (.inr ⟨h.symm, hab⟩)
      · exact .inr (.inl h)
  have hnd : l.Nodup := hperm.nodup_iff.mpr (Finset.nodup_toList _)
  have hlen : (l.length : Int) = xs.len := by rw [hperm.length_eq, Finset.length_toList]; rfl
  have hmem : ∀ a, a ∈ l ↔ a ∈ xs.idx := fun a => by rw [hperm.mem_iff, Finset.mem_toList]
  let p : Arr Int := ⟨1, xs.len, fun k => l.getD (k - 1).toNat 0⟩
  have hget : ∀ k (hk : k ∈ p.idx), ∃ h : (k - 1).toNat < l.length, p k = l[(k - 1).toNat] := by
    intro k hk
    rw [Arr.mem_idx] at hk
    have hlt : (k - 1).toNat < l.length := by
      have h1 : (1 : Int) ≤ k := hk.1
      have h2 : k ≤ xs.len := hk.2
      omega
    exact ⟨hlt, Count.getD_get _ _ hlt⟩
  refine ⟨p, (argSortFn_iff xs p).mpr ⟨rfl, rfl, ?_, ?_, ?_⟩⟩
  · intro k hk
    obtain ⟨h, e⟩ := hget k hk
    rw [e]
    exact (hmem _).mp (List.getElem_mem h)
  · intro i hi
    obtain ⟨n, hn, e⟩ := List.getElem_of_mem ((hmem i).mpr hi)
    refine ⟨(n : Int) + 1, ?_, ?_⟩
    · rw [Arr.mem_idx]
      show (1 : Int) ≤ _ ∧ _ ≤ xs.len
      omega
    · show l.getD (((n : Int) + 1 - 1).toNat) 0 = i
      have : ((n : Int) + 1 - 1).toNat = n := by omega
      rw [this, Count.getD_get _ _ hn, e]
  · intro j hj k hk hlt
    obtain ⟨h1, e1⟩ := hget j hj
    obtain ⟨h2, e2⟩ := hget k hk
    rw [e1, e2]
    have hj1 : (1 : Int) ≤ j := ((Arr.mem_idx _ _).mp hj).1
    have hlt' : (j - 1).toNat < (k - 1).toNat := by omega
    have hs := List.pairwise_iff_getElem.mp hsorted _ _ h1 h2 hlt'
    rcases hs with hs | ⟨e, hle⟩
    · exact .inl hs
    · refine .inr ⟨e, lt_of_le_of_ne hle ?_⟩
      intro he
      have := (List.Nodup.getElem_inj_iff hnd).mp he
      omega

theorem argSort_unique_aux (xs : Arr α) (p q : Arr Int) (hlo : p.lo = 1) (hlo' : q.lo = 1) (hhi : p.hi = q.hi)
    (hp : ArgSort xs p) (hq : ArgSort xs q) :
    ∀ (n : Nat) (j : Int), j.toNat = n → j ∈ p.idx → (∀ k ∈ p.idx, k < j → p k = q k) → ¬ before xs (p j) (q j) := by
  intro n j hn hj ih hb
  have hidx : p.idx = q.idx := by unfold Arr.idx; rw [hlo, hlo', hhi]
  obtain ⟨k, hk, e⟩ := hq.2.1 (p j) (hp.1 j hj)
  have irr : ∀ a, ¬ before xs a a := by
    rintro a (h | ⟨-, h⟩)
    · exact lt_irrefl _ h
    · exact lt_irrefl _ h
  rcases lt_trichotomy k j with h | h | h
  · have h1 := ih k (hidx ▸ hk) h
    rw [e] at h1
    have := hp.2.2 k (hidx ▸ hk) j hj h
    rw [h1] at this
    exact irr _ this
  · rw [← h, e, h] at hb
    exact irr _ hb
  · have := hq.2.2 j (hidx ▸ hj) k hk h
    rw [e] at this
    exact irr _ (before_trans hb this)

theorem argSort_unique (xs : Arr α) (p q : Arr Int) (hp : argSortFn xs p) (hq : argSortFn xs q) :
    ∀ j ∈ p.idx, p j = q j := by
  obtain ⟨a1, a2, a3⟩ := (argSortFn_iff xs p).mp hp
  obtain ⟨b1, b2, b3⟩ := (argSortFn_iff xs q).mp hq
  have hidx : p.idx = q.idx := by unfold Arr.idx; rw [a1, a2, b1, b2]
  have main : ∀ (n : Nat) (j : Int), j.toNat = n → j ∈ p.idx → p j = q j := by
    intro n
    induction n using Nat.strong_induction_on with
    | _ n ih =>
      intro j hn hj
      have hprev : ∀ k ∈ p.idx, k < j → p k = q k := by
        intro k hk hlt
        have h1 : 1 ≤ k := a1 ▸ ((Arr.mem_idx _ _).mp hk).1
        exact ih k.toNat (by omega) k rfl hk
      have n1 := argSort_unique_aux xs p q a1 b1 (a2.trans b2.symm) a3 b3 n j hn hj hprev
      have n2 := argSort_unique_aux xs q p b1 a1 (b2.trans a2.symm) b3 a3 n j hn (hidx ▸ hj)
        (fun k hk hlt => (hprev k (hidx ▸ hk) hlt).symm)
      rcases lt_trichotomy (xs (p j)) (xs (q j)) with h | h | h
      · exact absurd (.inl h) n1
      · rcases lt_trichotomy (p j) (q j) with h' | h' | h'
        · exact absurd (.inr ⟨h, h'⟩) n1
        · exact h'
        · exact absurd (.inr ⟨h.symm, h'⟩) n2
      · exact absurd (.inl h) n2
  exact fun j hj => main _ j rfl hj

end

/-- The function `sort` has a result for every array. -/
theorem sort_exists (xs : Arr Int) : ∃ ys : Arr Int, ys.lo = xs.lo ∧ ys.hi = xs.hi ∧ Sorted xs ys := by
  obtain ⟨p, hp⟩ := argSort_exists xs
  obtain ⟨h1, h2, h3, h4, h5⟩ := (argSortFn_iff xs p).mp hp
  have hinj : ∀ i ∈ p.idx, ∀ j ∈ p.idx, p i = p j → i = j := by
    intro i hi j hj e
    rcases lt_trichotomy i j with h | h | h
    · rcases h5 i hi j hj h with h' | ⟨-, h'⟩
      · rw [e] at h'; exact absurd h' (lt_irrefl _)
      · omega
    · exact h
    · rcases h5 j hj i hi h with h' | ⟨-, h'⟩
      · rw [e] at h'; exact absurd h' (lt_irrefl _)
      · omega
  by_cases hne : xs.lo ≤ xs.hi
  · have hlen := len_eq xs (by omega)
    have hm : ∀ j, xs.lo ≤ j → j ≤ xs.hi → j - xs.lo + 1 ∈ p.idx := by
      intro j a b; rw [Arr.mem_idx, h1, h2]; omega
    let ys : Arr Int := ⟨xs.lo, xs.hi, fun j => xs (p (j - xs.lo + 1))⟩
    refine ⟨ys, rfl, rfl, ?_, ?_⟩
    · intro v
      refine (times_of_bij (xs := ys) (ys := xs) (p := fun j => p (j - xs.lo + 1)) rfl ?_ ?_ ?_ v).symm
      · intro i hi
        rw [Arr.mem_idx] at hi
        exact h3 _ (hm i hi.1 hi.2)
      · intro i hi j hj e
        rw [Arr.mem_idx] at hi hj
        have := hinj _ (hm i hi.1 hi.2) _ (hm j hj.1 hj.2) e
        omega
      · intro i _; rfl
    · intro i hi j hj hlt
      rw [Arr.mem_idx] at hi hj
      rcases h5 _ (hm i hi.1 hi.2) _ (hm j hj.1 hj.2) (by omega) with h | ⟨h, -⟩
      · exact le_of_lt h
      · exact le_of_eq h
  · have he : xs.idx = ∅ := by unfold Arr.idx; exact Finset.Icc_eq_empty (by omega)
    refine ⟨xs, rfl, rfl, fun _ => rfl, ?_⟩
    rw [he]; simp

end MZ.Chan
