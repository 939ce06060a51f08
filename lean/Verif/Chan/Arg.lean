import Verif.Chan.Sort

/-! # The index of the greatest, the least, or a given element -/

namespace MZ.Chan
open MZ.Globals MZ.Chan.Spec

theorem weight_lt {n a b r s : Int} (hn : 0 ≤ n) (hab : a < b) (hr : r < n) (hs : 0 ≤ s) : n * a + r < n * b + s := by
  have h : n * (a + 1) ≤ n * b := Int.mul_le_mul_of_nonneg_left (by omega) hn
  rw [Int.mul_add] at h
  omega

theorem firstMax_unique {α : Type} [LinearOrder α] {xs : Arr α} {a b : Int} (ha : FirstMax xs a) (hb : FirstMax xs b) : a = b := by
  have e : xs a = xs b := le_antisymm (hb.2.1 a ha.1) (ha.2.1 b hb.1)
  have h1 := ha.2.2 b hb.1 e.symm
  have h2 := hb.2.2 a ha.1 e
  omega

theorem maximumArg_iff (xs : Arr Int) (m : Int) : fznMaximumArg xs m ↔ FirstMax xs m := by
  constructor
  · rintro ⟨hne, h⟩
    dsimp only at h
    obtain ⟨M, hM, eM⟩ := maxOf_mem (f := fun j => (xs.hi - xs.lo + 1) * xs j + (xs.hi - j)) hne
    have hmM : m = M := by
      by_contra hc
      have := (h M hM).mp hc
      unfold Arr.idx at eM
      rw [eM] at this
      exact lt_irrefl _ this
    subst hmM
    have hle : ∀ j ∈ xs.idx, (xs.hi - xs.lo + 1) * xs j + (xs.hi - j) ≤ (xs.hi - xs.lo + 1) * xs m + (xs.hi - m) := by
      intro j hj
      have := le_maxOf (f := fun j => (xs.hi - xs.lo + 1) * xs j + (xs.hi - j)) hj
      rw [eM] at this
      exact this
    have hm := (Arr.mem_idx _ _).mp hM
    refine ⟨hM, ?_, ?_⟩
    · intro j hj
      have hj' := (Arr.mem_idx _ _).mp hj
      by_contra hc
      have := weight_lt (n := xs.hi - xs.lo + 1) (r := xs.hi - m) (s := xs.hi - j) (by omega) (not_le.mp hc) (by omega) (by omega)
      have := hle j hj
      omega
    · intro j hj e
      have := hle j hj
      rw [e] at this
      omega
  · rintro ⟨hm, h1, h2⟩
    refine ⟨⟨m, hm⟩, ?_⟩
    dsimp only
    have hm' := (Arr.mem_idx _ _).mp hm
    have hlt : ∀ j ∈ xs.idx, j ≠ m → (xs.hi - xs.lo + 1) * xs j + (xs.hi - j) < (xs.hi - xs.lo + 1) * xs m + (xs.hi - m) := by
      intro j hj hne
      have hj' := (Arr.mem_idx _ _).mp hj
      rcases lt_or_eq_of_le (h1 j hj) with h | h
      · exact weight_lt (by omega) h (by omega) (by omega)
      · have := h2 j hj h
        rw [h]
        omega
    have hmax : maxOf (Finset.Icc xs.lo xs.hi) (fun j => (xs.hi - xs.lo + 1) * xs j + (xs.hi - j)) =
        (xs.hi - xs.lo + 1) * xs m + (xs.hi - m) := by
      obtain ⟨M, hM, eM⟩ := maxOf_mem (S := Finset.Icc xs.lo xs.hi) (f := fun j => (xs.hi - xs.lo + 1) * xs j + (xs.hi - j)) ⟨m, hm⟩
      have hge := le_maxOf (S := Finset.Icc xs.lo xs.hi) (f := fun j => (xs.hi - xs.lo + 1) * xs j + (xs.hi - j)) hm
      by_cases he : M = m
      · rw [eM, he]
      · have := hlt M hM he
        omega
    intro j hj
    rw [hmax]
    constructor
    · intro hne; exact hlt j hj (fun e => hne e.symm)
    · rintro hgt rfl; exact lt_irrefl _ hgt

theorem minimumArg_iff (xs : Arr Int) (m : Int) : fznMinimumArg xs m ↔ FirstMin xs m := by
  constructor
  · rintro ⟨hne, h⟩
    dsimp only at h
    obtain ⟨M, hM, eM⟩ := minOf_mem (f := fun j => (xs.hi - xs.lo + 1) * xs j + j) hne
    have hmM : m = M := by
      by_contra hc
      have := (h M hM).mp hc
      unfold Arr.idx at eM
      rw [eM] at this
      exact lt_irrefl _ this
    subst hmM
    have hle : ∀ j ∈ xs.idx, (xs.hi - xs.lo + 1) * xs m + m ≤ (xs.hi - xs.lo + 1) * xs j + j := by
      intro j hj
      have := minOf_le (f := fun j => (xs.hi - xs.lo + 1) * xs j + j) hj
      rw [eM] at this
      exact this
    have hm := (Arr.mem_idx _ _).mp hM
    refine ⟨hM, ?_, ?_⟩
    · intro j hj
      have hj' := (Arr.mem_idx _ _).mp hj
      by_contra hc
      have := weight_lt (n := xs.hi - xs.lo + 1) (r := j - xs.lo) (s := m - xs.lo) (by omega) (not_le.mp hc) (by omega) (by omega)
      have := hle j hj
      omega
    · intro j hj e
      have := hle j hj
      rw [e] at this
      omega
  · rintro ⟨hm, h1, h2⟩
    refine ⟨⟨m, hm⟩, ?_⟩
    dsimp only
    have hm' := (Arr.mem_idx _ _).mp hm
    have hlt : ∀ j ∈ xs.idx, j ≠ m → (xs.hi - xs.lo + 1) * xs m + m < (xs.hi - xs.lo + 1) * xs j + j := by
      intro j hj hne
      have hj' := (Arr.mem_idx _ _).mp hj
      rcases lt_or_eq_of_le (h1 j hj) with h | h
      · have := weight_lt (n := xs.hi - xs.lo + 1) (r := m - xs.lo) (s := j - xs.lo) (by omega) h (by omega) (by omega)
        omega
      · have := h2 j hj h.symm
        rw [h]
        omega
    have hmin : minOf (Finset.Icc xs.lo xs.hi) (fun j => (xs.hi - xs.lo + 1) * xs j + j) =
        (xs.hi - xs.lo + 1) * xs m + m := by
      obtain ⟨M, hM, eM⟩ := minOf_mem (S := Finset.Icc xs.lo xs.hi) (f := fun j => (xs.hi - xs.lo + 1) * xs j + j) ⟨m, hm⟩
      have hge := minOf_le (S := Finset.Icc xs.lo xs.hi) (f := fun j => (xs.hi - xs.lo + 1) * xs j + j) hm
      by_cases he : M = m
      · rw [eM, he]
      · have := hlt M hM he
        omega
    intro j hj
    rw [hmin]
    constructor
    · intro hne; exact hlt j hj (fun e => hne e.symm)
    · rintro hgt rfl; exact lt_irrefl _ hgt

theorem len_pos {α : Type} {xs : Arr α} {m : Int} (h : m ∈ xs.idx) : 0 < xs.len := by
  have : 0 < xs.idx.card := Finset.card_pos.mpr ⟨m, h⟩
  unfold Arr.len; omega

theorem argMax_iff (xs : Arr Int) (m : Int) : argMax xs m ↔ FirstMax xs m := by
  unfold argMax
  rw [maximumArg_iff]
  constructor
  · rintro ⟨h1, h2⟩
    rw [if_neg (by omega)] at h2
    exact h2.2
  · intro h
    have hl := len_pos h.1
    refine ⟨hl, ?_⟩
    rw [if_neg (by omega)]
    exact ⟨h.1, h⟩

theorem argMin_iff (xs : Arr Int) (m : Int) : argMin xs m ↔ FirstMin xs m := by
  unfold argMin
  rw [minimumArg_iff]
  constructor
  · rintro ⟨h1, h2⟩
    rw [if_neg (by omega)] at h2
    exact h2.2
  · intro h
    have hl := len_pos h.1
    refine ⟨hl, ?_⟩
    rw [if_neg (by omega)]
    exact ⟨h.1, h⟩

/-- There is a first greatest element. -/
theorem firstMax_exists {α : Type} [LinearOrder α] (xs : Arr α) (hne : xs.idx.Nonempty) : ∃ m, FirstMax xs m := by
  classical
  obtain ⟨M, hM, hmax⟩ := Finset.exists_max_image xs.idx xs.val hne
  obtain ⟨m, hm, hmin⟩ := Finset.exists_min_image (xs.idx.filter (fun j => xs j = xs M)) id
    ⟨M, Finset.mem_filter.mpr ⟨hM, rfl⟩⟩
  rw [Finset.mem_filter] at hm
  refine ⟨m, hm.1, ?_, ?_⟩
  · intro j hj; rw [hm.2]; exact hmax j hj
  · intro j hj e
    exact hmin j (Finset.mem_filter.mpr ⟨hj, e.trans hm.2⟩)

theorem firstMin_exists {α : Type} [LinearOrder α] (xs : Arr α) (hne : xs.idx.Nonempty) : ∃ m, FirstMin xs m := by
  classical
  obtain ⟨M, hM, hmax⟩ := Finset.exists_min_image xs.idx xs.val hne
  obtain ⟨m, hm, hmin⟩ := Finset.exists_min_image (xs.idx.filter (fun j => xs j = xs M)) id
    ⟨M, Finset.mem_filter.mpr ⟨hM, rfl⟩⟩
  rw [Finset.mem_filter] at hm
  refine ⟨m, hm.1, ?_, ?_⟩
  · intro j hj; rw [hm.2]; exact hmax j hj
  · intro j hj e
    exact hmin j (Finset.mem_filter.mpr ⟨hj, e.trans hm.2⟩)

theorem firstMin_unique {α : Type} [LinearOrder α] {xs : Arr α} {a b : Int} (ha : FirstMin xs a) (hb : FirstMin xs b) : a = b := by
  have e : xs a = xs b := le_antisymm (ha.2.1 b hb.1) (hb.2.1 a ha.1)
  have h1 := ha.2.2 b hb.1 e.symm
  have h2 := hb.2.2 a ha.1 e
  omega

/-! ## Optional elements -/

section
variable {α β : Type} [LinearOrder α] [LinearOrder β]

/-- Elements coded as numbers, absent ones below all others. -/
theorem firstMax_coded (xs : Arr (Option α)) (ys : Arr β) (c : α → β) (d : β) (hlo : ys.lo = xs.lo) (hhi : ys.hi = xs.hi)
    (hmono : ∀ i ∈ xs.idx, ∀ j ∈ xs.idx, ∀ u v, xs i = some u → xs j = some v → (c u ≤ c v ↔ u ≤ v))
    (hsome : ∀ i ∈ xs.idx, ∀ u, xs i = some u → ys i = c u ∧ d < c u) (hnone : ∀ i ∈ xs.idx, xs i = none → ys i = d)
    (hex : ∃ i ∈ xs.idx, xs i ≠ none) (m : Int) : FirstMax ys m ↔ FirstMaxPresent xs m := by
  have hidx : ys.idx = xs.idx := by unfold Arr.idx; rw [hlo, hhi]
  constructor
  · rintro ⟨hm, h1, h2⟩
    rw [hidx] at hm h1 h2
    obtain ⟨i, hi, hne⟩ := hex
    obtain ⟨u, hu⟩ := Option.ne_none_iff_exists'.mp hne
    have hle := h1 i hi
    rw [(hsome i hi u hu).1] at hle
    rcases hx : xs m with _ | v
    · rw [hnone m hm hx] at hle
      exact absurd hle (not_le.mpr (hsome i hi u hu).2)
    · refine ⟨hm, v, hx, ?_, ?_⟩
      · intro j hj w hw
        have := h1 j hj
        rw [(hsome j hj w hw).1, (hsome m hm v hx).1] at this
        exact (hmono j hj m hm w v hw hx).mp this
      · intro j hj hw
        apply h2 j hj
        rw [(hsome j hj v hw).1, (hsome m hm v hx).1]
  · rintro ⟨hm, v, hx, h1, h2⟩
    have hv := hsome m hm v hx
    refine ⟨hidx ▸ hm, ?_, ?_⟩
    · intro j hj
      rw [hidx] at hj
      rw [hv.1]
      rcases hw : xs j with _ | w
      · rw [hnone j hj hw]; exact le_of_lt hv.2
      · rw [(hsome j hj w hw).1]
        exact (hmono j hj m hm w v hw hx).mpr (h1 j hj w hw)
    · intro j hj e
      rw [hidx] at hj
      rw [hv.1] at e
      rcases hw : xs j with _ | w
      · rw [hnone j hj hw] at e
        exact absurd e (ne_of_lt hv.2)
      · rw [(hsome j hj w hw).1] at e
        have : w = v := le_antisymm ((hmono j hj m hm w v hw hx).mp (le_of_eq e)) ((hmono m hm j hj v w hx hw).mp (le_of_eq e.symm))
        exact h2 j hj (this ▸ hw)

/-- Elements coded as numbers, absent ones above all others. -/
theorem firstMin_coded (xs : Arr (Option α)) (ys : Arr β) (c : α → β) (d : β) (hlo : ys.lo = xs.lo) (hhi : ys.hi = xs.hi)
    (hmono : ∀ i ∈ xs.idx, ∀ j ∈ xs.idx, ∀ u v, xs i = some u → xs j = some v → (c u ≤ c v ↔ u ≤ v))
    (hsome : ∀ i ∈ xs.idx, ∀ u, xs i = some u → ys i = c u ∧ c u < d) (hnone : ∀ i ∈ xs.idx, xs i = none → ys i = d)
    (hex : ∃ i ∈ xs.idx, xs i ≠ none) (m : Int) : FirstMin ys m ↔ FirstMinPresent xs m := by
  have hidx : ys.idx = xs.idx := by unfold Arr.idx; rw [hlo, hhi]
  constructor
  · rintro ⟨hm, h1, h2⟩
    rw [hidx] at hm h1 h2
    obtain ⟨i, hi, hne⟩ := hex
    obtain ⟨u, hu⟩ := Option.ne_none_iff_exists'.mp hne
    have hle := h1 i hi
    rw [(hsome i hi u hu).1] at hle
    rcases hx : xs m with _ | v
    · rw [hnone m hm hx] at hle
      exact absurd hle (not_le.mpr (hsome i hi u hu).2)
    · refine ⟨hm, v, hx, ?_, ?_⟩
      · intro j hj w hw
        have := h1 j hj
        rw [(hsome j hj w hw).1, (hsome m hm v hx).1] at this
        exact (hmono m hm j hj v w hx hw).mp this
      · intro j hj hw
        apply h2 j hj
        rw [(hsome j hj v hw).1, (hsome m hm v hx).1]
  · rintro ⟨hm, v, hx, h1, h2⟩
    have hv := hsome m hm v hx
    refine ⟨hidx ▸ hm, ?_, ?_⟩
    · intro j hj
      rw [hidx] at hj
      rw [hv.1]
      rcases hw : xs j with _ | w
      · rw [hnone j hj hw]; exact le_of_lt hv.2
      · rw [(hsome j hj w hw).1]
        exact (hmono m hm j hj v w hx hw).mpr (h1 j hj w hw)
    · intro j hj e
      rw [hidx] at hj
      rw [hv.1] at e
      rcases hw : xs j with _ | w
      · rw [hnone j hj hw] at e
        exact absurd e.symm (ne_of_lt hv.2)
      · rw [(hsome j hj w hw).1] at e
        have : w = v := le_antisymm ((hmono j hj m hm w v hw hx).mp (le_of_eq e)) ((hmono m hm j hj v w hx hw).mp (le_of_eq e.symm))
        exact h2 j hj (this ▸ hw)

end

theorem defMax_lt (had0 : Bool) (lb : Int) : defMax had0 lb < lb := by
  unfold defMax
  cases had0 <;> simp
  · split <;> omega

theorem lt_defMin (had0 : Bool) (ub : Int) : ub < defMin had0 ub := by
  unfold defMin
  cases had0 <;> simp
  · split <;> omega

theorem maximumArgOpt_iff (xs : Arr (Option Int)) (had0 : Bool) (lb : Int) (hlb : ∀ i ∈ xs.idx, ∀ v, xs i = some v → lb ≤ v)
    (hex : ∃ i ∈ xs.idx, xs i ≠ none) (m : Int) : fznMaximumArgOpt xs had0 lb m ↔ FirstMaxPresent xs m := by
  unfold fznMaximumArgOpt
  rw [argMax_iff]
  refine firstMax_coded xs _ id (defMax had0 lb) rfl rfl (fun _ _ _ _ _ _ _ _ => Iff.rfl) ?_ ?_ hex m
  · intro i hi u hu
    refine ⟨by show (xs i).getD _ = u; rw [hu]; rfl, lt_of_lt_of_le (defMax_lt had0 lb) (hlb i hi u hu)⟩
  · intro i _ hn; show (xs i).getD _ = _; rw [hn]; rfl

theorem minimumArgOpt_iff (xs : Arr (Option Int)) (had0 : Bool) (ub : Int) (hub : ∀ i ∈ xs.idx, ∀ v, xs i = some v → v ≤ ub)
    (hex : ∃ i ∈ xs.idx, xs i ≠ none) (m : Int) : fznMinimumArgOpt xs had0 ub m ↔ FirstMinPresent xs m := by
  unfold fznMinimumArgOpt
  rw [argMin_iff]
  refine firstMin_coded xs _ id (defMin had0 ub) rfl rfl (fun _ _ _ _ _ _ _ _ => Iff.rfl) ?_ ?_ hex m
  · intro i hi u hu
    refine ⟨by show (xs i).getD _ = u; rw [hu]; rfl, lt_of_le_of_lt (hub i hi u hu) (lt_defMin had0 ub)⟩
  · intro i _ hn; show (xs i).getD _ = _; rw [hn]; rfl

theorem b2i_le (u v : Bool) : b2i (u = true) + 1 ≤ b2i (v = true) + 1 ↔ u ≤ v := by
  cases u <;> cases v <;> decide

theorem maximumArgBoolOpt_iff (xs : Arr (Option Bool)) (hex : ∃ i ∈ xs.idx, xs i ≠ none) (m : Int) :
    fznMaximumArgBoolOpt xs m ↔ FirstMaxPresent xs m := by
  unfold fznMaximumArgBoolOpt
  rw [argMax_iff]
  refine firstMax_coded xs _ (fun b : Bool => b2i (b = true) + 1) 0 rfl rfl (fun _ _ _ _ _ _ _ _ => b2i_le _ _) ?_ ?_ hex m
  · intro i _ u hu
    refine ⟨by show ((xs i).map _).getD _ = _; rw [hu]; rfl, ?_⟩
    have := b2i_nonneg (u = true); omega
  · intro i _ hn; show ((xs i).map _).getD _ = _; rw [hn]; rfl

theorem minimumArgBoolOpt_iff (xs : Arr (Option Bool)) (hex : ∃ i ∈ xs.idx, xs i ≠ none) (m : Int) :
    fznMinimumArgBoolOpt xs m ↔ FirstMinPresent xs m := by
  unfold fznMinimumArgBoolOpt
  rw [argMin_iff]
  refine firstMin_coded xs _ (fun b : Bool => b2i (b = true)) 2 rfl rfl
    (fun _ _ _ _ u v _ _ => by have := b2i_le u v; rw [← this]; omega) ?_ ?_ hex m
  · intro i _ u hu
    refine ⟨by show ((xs i).map _).getD _ = _; rw [hu]; rfl, ?_⟩
    cases u <;> decide
  · intro i _ hn; show ((xs i).map _).getD _ = _; rw [hn]; rfl

section
variable {α : Type} [LinearOrder α]

theorem extend_mem {β : Type} (xs : Arr β) (v : β) (hlo : xs.lo ≤ xs.hi + 1) (i : Int) :
    i ∈ (extend xs v).idx ↔ i ∈ xs.idx ∨ i = xs.hi + 1 := by
  rw [Arr.mem_idx, Arr.mem_idx]
  show xs.lo ≤ i ∧ i ≤ xs.hi + 1 ↔ _
  omega

theorem extend_old {β : Type} (xs : Arr β) (v : β) {i : Int} (hi : i ∈ xs.idx) : extend xs v i = xs i := by
  rw [Arr.mem_idx] at hi
  exact if_pos hi.2

theorem extend_new {β : Type} (xs : Arr β) (v : β) : extend xs v (xs.hi + 1) = v := by
  show (if xs.hi + 1 ≤ xs.hi then _ else _) = v
  rw [if_neg (by omega)]

/-- The additional element of the least value is chosen only where all others are absent. -/
theorem weak_extend (xs : Arr (Option α)) (l : α) (hne : xs.idx.Nonempty) (hl : ∀ i ∈ xs.idx, ∀ v, xs i = some v → l ≤ v)
    (r : Option Int) :
    (∃ i ∈ Finset.Icc xs.lo (xs.hi + 1), FirstMaxPresent (extend xs (some l)) i ∧ r = if i ∈ xs.idx then some i else none) ↔
      ArgMaxWeak xs r := by
  obtain ⟨i0, hi0⟩ := hne
  have hlo : xs.lo ≤ xs.hi + 1 := by rw [Arr.mem_idx] at hi0; omega
  have hnotin : xs.hi + 1 ∉ xs.idx := by rw [Arr.mem_idx]; omega
  have hnew : xs.hi + 1 ∈ (extend xs (some l)).idx := (extend_mem _ _ hlo _).mpr (.inr rfl)
  constructor
  · rintro ⟨i, -, ⟨hm, v, hx, h1, h2⟩, rfl⟩
    rcases (extend_mem _ _ hlo i).mp hm with hi | rfl
    · rw [if_pos hi]
      rw [extend_old _ _ hi] at hx
      refine .inr ⟨i, rfl, hi, v, hx, ?_, ?_⟩
      · intro j hj u hu
        exact h1 j ((extend_mem _ _ hlo j).mpr (.inl hj)) u (by rw [extend_old _ _ hj]; exact hu)
      · intro j hj hu
        exact h2 j ((extend_mem _ _ hlo j).mpr (.inl hj)) (by rw [extend_old _ _ hj]; exact hu)
    · rw [if_neg hnotin]
      rw [extend_new] at hx
      obtain rfl := Option.some.inj hx
      refine .inl ⟨?_, rfl⟩
      intro j hj
      rcases hw : xs j with _ | w
      · rfl
      · exfalso
        have hj' := (extend_mem xs (some l) hlo j).mpr (.inl hj)
        have hw' : extend xs (some l) j = some w := by rw [extend_old _ _ hj]; exact hw
        have e : w = l := le_antisymm (h1 j hj' w hw') (hl j hj w hw)
        have := h2 j hj' (e ▸ hw')
        rw [Arr.mem_idx] at hj
        omega
  · rintro (⟨hall, rfl⟩ | ⟨m, rfl, hm, v, hx, h1, h2⟩)
    · refine ⟨xs.hi + 1, Finset.mem_Icc.mpr ⟨hlo, le_refl _⟩, ⟨hnew, l, extend_new _ _, ?_, ?_⟩, (if_neg hnotin).symm⟩
      · intro j hj u hu
        rcases (extend_mem _ _ hlo j).mp hj with hj | rfl
        · rw [extend_old _ _ hj, hall j hj] at hu; exact absurd hu (by simp)
        · rw [extend_new] at hu; exact le_of_eq (Option.some.inj hu).symm
      · intro j hj hu
        rcases (extend_mem _ _ hlo j).mp hj with hj | rfl
        · rw [extend_old _ _ hj, hall j hj] at hu; exact absurd hu (by simp)
        · exact le_refl _
    · have hm' := (Arr.mem_idx _ _).mp hm
      refine ⟨m, Finset.mem_Icc.mpr ⟨hm'.1, by omega⟩, ⟨(extend_mem _ _ hlo m).mpr (.inl hm), v, ?_, ?_, ?_⟩, (if_pos hm).symm⟩
      · rw [extend_old _ _ hm]; exact hx
      · intro j hj u hu
        rcases (extend_mem _ _ hlo j).mp hj with hj | rfl
        · rw [extend_old _ _ hj] at hu; exact h1 j hj u hu
        · rw [extend_new] at hu
          rw [← Option.some.inj hu]; exact hl m hm v hx
      · intro j hj hu
        rcases (extend_mem _ _ hlo j).mp hj with hj | rfl
        · rw [extend_old _ _ hj] at hu; exact h2 j hj hu
        · omega

/-- The additional element of the greatest value is chosen only where all others are absent. -/
theorem weak_extend_min (xs : Arr (Option α)) (l : α) (hne : xs.idx.Nonempty) (hl : ∀ i ∈ xs.idx, ∀ v, xs i = some v → v ≤ l)
    (r : Option Int) :
    (∃ i ∈ Finset.Icc xs.lo (xs.hi + 1), FirstMinPresent (extend xs (some l)) i ∧ r = if i ∈ xs.idx then some i else none) ↔
      ArgMinWeak xs r := by
  obtain ⟨i0, hi0⟩ := hne
  have hlo : xs.lo ≤ xs.hi + 1 := by rw [Arr.mem_idx] at hi0; omega
  have hnotin : xs.hi + 1 ∉ xs.idx := by rw [Arr.mem_idx]; omega
  have hnew : xs.hi + 1 ∈ (extend xs (some l)).idx := (extend_mem _ _ hlo _).mpr (.inr rfl)
  constructor
  · rintro ⟨i, -, ⟨hm, v, hx, h1, h2⟩, rfl⟩
    rcases (extend_mem _ _ hlo i).mp hm with hi | rfl
    · rw [if_pos hi]
      rw [extend_old _ _ hi] at hx
      refine .inr ⟨i, rfl, hi, v, hx, ?_, ?_⟩
      · intro j hj u hu
        exact h1 j ((extend_mem _ _ hlo j).mpr (.inl hj)) u (by rw [extend_old _ _ hj]; exact hu)
      · intro j hj hu
        exact h2 j ((extend_mem _ _ hlo j).mpr (.inl hj)) (by rw [extend_old _ _ hj]; exact hu)
    · rw [if_neg hnotin]
      rw [extend_new] at hx
      obtain rfl := Option.some.inj hx
      refine .inl ⟨?_, rfl⟩
      intro j hj
      rcases hw : xs j with _ | w
      · rfl
      · exfalso
        have hj' := (extend_mem xs (some l) hlo j).mpr (.inl hj)
        have hw' : extend xs (some l) j = some w := by rw [extend_old _ _ hj]; exact hw
        have e : w = l := le_antisymm (hl j hj w hw) (h1 j hj' w hw')
        have := h2 j hj' (e ▸ hw')
        rw [Arr.mem_idx] at hj
        omega
  · rintro (⟨hall, rfl⟩ | ⟨m, rfl, hm, v, hx, h1, h2⟩)
    · refine ⟨xs.hi + 1, Finset.mem_Icc.mpr ⟨hlo, le_refl _⟩, ⟨hnew, l, extend_new _ _, ?_, ?_⟩, (if_neg hnotin).symm⟩
      · intro j hj u hu
        rcases (extend_mem _ _ hlo j).mp hj with hj | rfl
        · rw [extend_old _ _ hj, hall j hj] at hu; exact absurd hu (by simp)
        · rw [extend_new] at hu; exact le_of_eq (Option.some.inj hu)
      · intro j hj hu
        rcases (extend_mem _ _ hlo j).mp hj with hj | rfl
        · rw [extend_old _ _ hj, hall j hj] at hu; exact absurd hu (by simp)
        · exact le_refl _
    · have hm' := (Arr.mem_idx _ _).mp hm
      refine ⟨m, Finset.mem_Icc.mpr ⟨hm'.1, by omega⟩, ⟨(extend_mem _ _ hlo m).mpr (.inl hm), v, ?_, ?_, ?_⟩, (if_pos hm).symm⟩
      · rw [extend_old _ _ hm]; exact hx
      · intro j hj u hu
        rcases (extend_mem _ _ hlo j).mp hj with hj | rfl
        · rw [extend_old _ _ hj] at hu; exact h1 j hj u hu
        · rw [extend_new] at hu
          rw [← Option.some.inj hu]; exact hl m hm v hx
      · intro j hj hu
        rcases (extend_mem _ _ hlo j).mp hj with hj | rfl
        · rw [extend_old _ _ hj] at hu; exact h2 j hj hu
        · omega

theorem weak_known (xs : Arr (Option α)) (hex : ∃ i ∈ xs.idx, xs i ≠ none) (r : Option Int) :
    (∃ i ∈ xs.idx, FirstMaxPresent xs i ∧ r = some i) ↔ ArgMaxWeak xs r := by
  constructor
  · rintro ⟨i, -, h, e⟩; exact .inr ⟨i, e, h⟩
  · rintro (⟨h, -⟩ | ⟨m, e, h⟩)
    · obtain ⟨i, hi, hne⟩ := hex; exact absurd (h i hi) hne
    · exact ⟨m, h.1, h, e⟩

theorem weak_known_min (xs : Arr (Option α)) (hex : ∃ i ∈ xs.idx, xs i ≠ none) (r : Option Int) :
    (∃ i ∈ xs.idx, FirstMinPresent xs i ∧ r = some i) ↔ ArgMinWeak xs r := by
  constructor
  · rintro ⟨i, -, h, e⟩; exact .inr ⟨i, e, h⟩
  · rintro (⟨h, -⟩ | ⟨m, e, h⟩)
    · obtain ⟨i, hi, hne⟩ := hex; exact absurd (h i hi) hne
    · exact ⟨m, h.1, h, e⟩

theorem weak_empty (xs : Arr (Option α)) (h : xs.idx = ∅) (r : Option Int) : r = none ↔ ArgMaxWeak xs r := by
  constructor
  · intro e; exact .inl ⟨by rw [h]; simp, e⟩
  · rintro (⟨-, e⟩ | ⟨m, -, hm, -⟩)
    · exact e
    · rw [h] at hm; simp at hm

theorem weak_empty_min (xs : Arr (Option α)) (h : xs.idx = ∅) (r : Option Int) : r = none ↔ ArgMinWeak xs r := by
  constructor
  · intro e; exact .inl ⟨by rw [h]; simp, e⟩
  · rintro (⟨-, e⟩ | ⟨m, -, hm, -⟩)
    · exact e
    · rw [h] at hm; simp at hm

end

theorem nonempty_of_len {α : Type} {xs : Arr α} (h : xs.len ≠ 0) : xs.idx.Nonempty := by
  rw [Finset.nonempty_iff_ne_empty]
  exact fun e => h (Count.len_zero.mpr e)

theorem extend_lb {β : Type} [LinearOrder β] (xs : Arr (Option β)) (l : β) (R : β → β → Prop) (hrefl : R l l)
    (hlo : xs.lo ≤ xs.hi + 1) (hl : ∀ i ∈ xs.idx, ∀ v, xs i = some v → R l v) :
    ∀ i ∈ (extend xs (some l)).idx, ∀ v, extend xs (some l) i = some v → R l v := by
  intro i hi v hv
  rcases (extend_mem _ _ hlo i).mp hi with hi | rfl
  · rw [extend_old _ _ hi] at hv; exact hl i hi v hv
  · rw [extend_new] at hv; rw [← Option.some.inj hv]; exact hrefl

theorem argMaxWeak_iff (xs : Arr (Option Int)) (known had0 : Bool) (l : Int) (r : Option Int)
    (hl : ∀ i ∈ xs.idx, ∀ v, xs i = some v → l ≤ v) (hk : known = true → ∃ i ∈ xs.idx, xs i ≠ none) :
    ∃ P, argMaxWeak xs known had0 (some l) r = some P ∧ (P ↔ ArgMaxWeak xs r) := by
  unfold argMaxWeak
  by_cases h0 : xs.len = 0
  · rw [if_pos h0]
    exact ⟨_, rfl, weak_empty xs (Count.len_zero.mp h0) r⟩
  · rw [if_neg h0]
    refine ⟨_, rfl, ?_⟩
    have hne := nonempty_of_len h0
    cases known with
    | true =>
      rw [if_pos rfl, ← weak_known xs (hk rfl) r]
      simp only [maximumArgOpt_iff xs had0 l hl (hk rfl)]
    | false =>
      rw [if_neg (by simp), ← weak_extend xs l hne hl r]
      have hlo : xs.lo ≤ xs.hi + 1 := by obtain ⟨i, hi⟩ := hne; rw [Arr.mem_idx] at hi; omega
      have hex : ∃ i ∈ (extend xs (some l)).idx, extend xs (some l) i ≠ none :=
        ⟨xs.hi + 1, (extend_mem _ _ hlo _).mpr (.inr rfl), by rw [extend_new]; simp⟩
      simp only [maximumArgOpt_iff _ had0 l (extend_lb xs l (· ≤ ·) (le_refl l) hlo hl) hex]

theorem argMinWeak_iff (xs : Arr (Option Int)) (known had0 : Bool) (l : Int) (r : Option Int)
    (hl : ∀ i ∈ xs.idx, ∀ v, xs i = some v → v ≤ l) (hk : known = true → ∃ i ∈ xs.idx, xs i ≠ none) :
    ∃ P, argMinWeak xs known had0 (some l) r = some P ∧ (P ↔ ArgMinWeak xs r) := by
  unfold argMinWeak
  by_cases h0 : xs.len = 0
  · rw [if_pos h0]
    exact ⟨_, rfl, weak_empty_min xs (Count.len_zero.mp h0) r⟩
  · rw [if_neg h0]
    refine ⟨_, rfl, ?_⟩
    have hne := nonempty_of_len h0
    cases known with
    | true =>
      rw [if_pos rfl, ← weak_known_min xs (hk rfl) r]
      simp only [minimumArgOpt_iff xs had0 l hl (hk rfl)]
    | false =>
      rw [if_neg (by simp), ← weak_extend_min xs l hne hl r]
      have hlo : xs.lo ≤ xs.hi + 1 := by obtain ⟨i, hi⟩ := hne; rw [Arr.mem_idx] at hi; omega
      have hex : ∃ i ∈ (extend xs (some l)).idx, extend xs (some l) i ≠ none :=
        ⟨xs.hi + 1, (extend_mem _ _ hlo _).mpr (.inr rfl), by rw [extend_new]; simp⟩
      simp only [minimumArgOpt_iff _ had0 l (extend_lb xs l (fun a b => b ≤ a) (le_refl l) hlo hl) hex]

theorem argMaxWeakBool_iff (xs : Arr (Option Bool)) (known : Bool) (r : Option Int)
    (hk : known = true → ∃ i ∈ xs.idx, xs i ≠ none) : argMaxWeakBool xs known r ↔ ArgMaxWeak xs r := by
  unfold argMaxWeakBool
  by_cases h0 : xs.len = 0
  · rw [if_pos h0]
    exact weak_empty xs (Count.len_zero.mp h0) r
  · rw [if_neg h0]
    have hne := nonempty_of_len h0
    cases known with
    | true =>
      rw [if_pos rfl, ← weak_known xs (hk rfl) r]
      simp only [maximumArgBoolOpt_iff xs (hk rfl)]
    | false =>
      rw [if_neg (by simp), ← weak_extend xs false hne (fun _ _ v _ => by cases v <;> decide) r]
      have hlo : xs.lo ≤ xs.hi + 1 := by obtain ⟨i, hi⟩ := hne; rw [Arr.mem_idx] at hi; omega
      have hex : ∃ i ∈ (extend xs (some false)).idx, extend xs (some false) i ≠ none :=
        ⟨xs.hi + 1, (extend_mem _ _ hlo _).mpr (.inr rfl), by rw [extend_new]; simp⟩
      simp only [maximumArgBoolOpt_iff _ hex]

theorem argMinWeakBool_iff (xs : Arr (Option Bool)) (known : Bool) (r : Option Int)
    (hk : known = true → ∃ i ∈ xs.idx, xs i ≠ none) : argMinWeakBool xs known r ↔ ArgMinWeak xs r := by
  unfold argMinWeakBool
  by_cases h0 : xs.len = 0
  · rw [if_pos h0]
    exact weak_empty_min xs (Count.len_zero.mp h0) r
  · rw [if_neg h0]
    have hne := nonempty_of_len h0
    cases known with
    | true =>
      rw [if_pos rfl, ← weak_known_min xs (hk rfl) r]
      simp only [minimumArgBoolOpt_iff xs (hk rfl)]
    | false =>
      rw [if_neg (by simp), ← weak_extend_min xs true hne (fun _ _ v _ => by cases v <;> decide) r]
      have hlo : xs.lo ≤ xs.hi + 1 := by obtain ⟨i, hi⟩ := hne; rw [Arr.mem_idx] at hi; omega
      have hex : ∃ i ∈ (extend xs (some true)).idx, extend xs (some true) i ≠ none :=
        ⟨xs.hi + 1, (extend_mem _ _ hlo _).mpr (.inr rfl), by rw [extend_new]; simp⟩
      simp only [minimumArgBoolOpt_iff _ hex]

/-- `arg_max` of optional integers: the first index where all are absent. -/
theorem argMaxOpt_iff (xs : Arr (Option Int)) (known had0 : Bool) (l : Int) (r : Int) (hne : xs.idx.Nonempty)
    (hl : ∀ i ∈ xs.idx, ∀ v, xs i = some v → l ≤ v) (hk : known = true → ∃ i ∈ xs.idx, xs i ≠ none) :
    ∃ P, argMaxOpt xs known had0 (some l) r = some P ∧
      (P ↔ FirstMaxPresent xs r ∨ ((∀ i ∈ xs.idx, xs i = none) ∧ r = xs.lo)) := by
  unfold argMaxOpt
  have h0 : xs.len ≠ 0 := by obtain ⟨i, hi⟩ := hne; have := len_pos hi; omega
  rw [if_neg h0]
  refine ⟨_, rfl, ?_⟩
  have hlo : xs.lo ≤ xs.hi + 1 := by obtain ⟨i, hi⟩ := hne; rw [Arr.mem_idx] at hi; omega
  cases known with
  | true =>
    rw [if_pos rfl]
    simp only [maximumArgOpt_iff xs had0 l hl (hk rfl)]
    constructor
    · rintro ⟨i, -, h, rfl⟩; exact .inl h
    · rintro (h | ⟨h, -⟩)
      · exact ⟨r, h.1, h, rfl⟩
      · obtain ⟨i, hi, hn⟩ := hk rfl; exact absurd (h i hi) hn
  | false =>
    rw [if_neg (by simp)]
    have hex : ∃ i ∈ (extend xs (some l)).idx, extend xs (some l) i ≠ none :=
      ⟨xs.hi + 1, (extend_mem _ _ hlo _).mpr (.inr rfl), by rw [extend_new]; simp⟩
    simp only [maximumArgOpt_iff _ had0 l (extend_lb xs l (· ≤ ·) (le_refl l) hlo hl) hex]
    constructor
    · rintro ⟨i, hi, hf, rfl⟩
      by_cases hix : i ∈ xs.idx
      · rw [if_pos hix]
        rcases (weak_extend xs l hne hl (some i)).mp ⟨i, hi, hf, (if_pos hix).symm⟩ with ⟨-, e⟩ | ⟨m, e, h⟩
        · exact absurd e (by simp)
        · rw [Option.some.inj e]; exact .inl h
      · rw [if_neg hix]
        rcases (weak_extend xs l hne hl none).mp ⟨i, hi, hf, (if_neg hix).symm⟩ with ⟨h, -⟩ | ⟨m, e, -⟩
        · exact .inr ⟨h, rfl⟩
        · exact absurd e (by simp)
    · rintro (h | ⟨h, rfl⟩)
      · obtain ⟨i, hi, hf, e⟩ := (weak_extend xs l hne hl (some r)).mpr (.inr ⟨r, rfl, h⟩)
        by_cases hix : i ∈ xs.idx
        · rw [if_pos hix] at e
          exact ⟨i, hi, hf, by rw [if_pos hix]; exact Option.some.inj e⟩
        · rw [if_neg hix] at e; exact absurd e (by simp)
      · obtain ⟨i, hi, hf, e⟩ := (weak_extend xs l hne hl none).mpr (.inl ⟨h, rfl⟩)
        by_cases hix : i ∈ xs.idx
        · rw [if_pos hix] at e; exact absurd e (by simp)
        · exact ⟨i, hi, hf, by rw [if_neg hix]⟩

/-! ## Values -/

theorem argValCore_iff (xs : Arr Int) (value m : Int) : fznArgVal xs value m ↔ FirstVal xs value m := by
  unfold fznArgVal
  rw [maximumArg_iff]
  constructor
  · rintro ⟨⟨-, h1, h2⟩, hm, e⟩
    refine ⟨hm, e, fun j hj ej => h2 j hj ?_⟩
    show b2i (xs j = value) = b2i (xs m = value)
    rw [b2i_true ej, b2i_true e]
  · rintro ⟨hm, e, h⟩
    refine ⟨⟨hm, ?_, ?_⟩, hm, e⟩
    · intro j _
      show b2i (xs j = value) ≤ b2i (xs m = value)
      rw [b2i_true e]; unfold b2i; split <;> omega
    · intro j hj ej
      have ej : b2i (xs j = value) = b2i (xs m = value) := ej
      rw [b2i_true e] at ej
      apply h j hj
      by_contra hc
      rw [b2i_false hc] at ej
      omega

theorem argVal_iff (xs : Arr Int) (value m : Int) : argVal xs value m ↔ FirstVal xs value m := by
  unfold argVal
  rw [argValCore_iff]
  exact ⟨fun h => h.2.2, fun h => ⟨len_pos h.1, h.1, h⟩⟩

theorem argValBool_iff (xs : Arr Bool) (value : Bool) (m : Int) : argValBool xs value m ↔ FirstVal xs value m := by
  unfold argValBool fznArgValBool
  rw [maximumArg_iff, minimumArg_iff]
  cases value with
  | true =>
    rw [if_pos rfl]
    constructor
    · rintro ⟨-, -, ⟨-, h1, h2⟩, hm, e⟩
      refine ⟨hm, e, fun j hj ej => h2 j hj ?_⟩
      show b2i (xs j = true) = b2i (xs m = true)
      rw [ej, e]
    · rintro ⟨hm, e, h⟩
      refine ⟨len_pos hm, hm, ⟨hm, ?_, ?_⟩, hm, e⟩
      · intro j _
        show b2i (xs j = true) ≤ b2i (xs m = true)
        rw [b2i_true e]; unfold b2i; split <;> omega
      · intro j hj ej
        have ej : b2i (xs j = true) = b2i (xs m = true) := ej
        rw [b2i_true e] at ej
        apply h j hj
        by_contra hc
        rw [b2i_false hc] at ej
        omega
  | false =>
    rw [if_neg (by simp)]
    constructor
    · rintro ⟨-, -, ⟨-, h1, h2⟩, hm, e⟩
      refine ⟨hm, e, fun j hj ej => h2 j hj ?_⟩
      show b2i (xs j = true) = b2i (xs m = true)
      rw [ej, e]
    · rintro ⟨hm, e, h⟩
      have e0 : b2i (xs m = true) = 0 := b2i_false (by rw [e]; simp)
      refine ⟨len_pos hm, hm, ⟨hm, ?_, ?_⟩, hm, e⟩
      · intro j _
        show b2i (xs m = true) ≤ b2i (xs j = true)
        rw [e0]; exact b2i_nonneg _
      · intro j hj ej
        have ej : b2i (xs j = true) = b2i (xs m = true) := ej
        rw [e0] at ej
        apply h j hj
        by_contra hc
        rw [b2i_true (by simpa using hc)] at ej
        omega

theorem argValWeak_iff (xs : Arr Int) (value : Int) (r : Option Int) : argValWeak xs value r ↔ ArgValWeak xs value r := by
  unfold argValWeak
  by_cases h0 : xs.len = 0
  · rw [if_pos h0]
    have he := Count.len_zero.mp h0
    constructor
    · intro e; exact .inl ⟨by rw [he]; simp, e⟩
    · rintro (⟨-, e⟩ | ⟨m, -, hm, -⟩)
      · exact e
      · rw [he] at hm; simp at hm
  · rw [if_neg h0]
    have hne := nonempty_of_len h0
    have hlo : xs.lo ≤ xs.hi + 1 := by obtain ⟨i, hi⟩ := hne; rw [Arr.mem_idx] at hi; omega
    have hnotin : xs.hi + 1 ∉ xs.idx := by rw [Arr.mem_idx]; omega
    simp only [argValCore_iff]
    constructor
    · rintro ⟨i, -, ⟨hm, e, h⟩, rfl⟩
      rcases (extend_mem _ _ hlo i).mp hm with hi | rfl
      · rw [if_pos hi]
        refine .inr ⟨i, rfl, hi, by rw [← e, extend_old _ _ hi], ?_⟩
        intro j hj ej
        exact h j ((extend_mem _ _ hlo j).mpr (.inl hj)) (by rw [extend_old _ _ hj]; exact ej)
      · rw [if_neg hnotin]
        refine .inl ⟨?_, rfl⟩
        intro j hj ej
        have := h j ((extend_mem _ _ hlo j).mpr (.inl hj)) (by rw [extend_old _ _ hj]; exact ej)
        rw [Arr.mem_idx] at hj
        omega
    · rintro (⟨hall, rfl⟩ | ⟨m, rfl, hm, e, h⟩)
      · refine ⟨xs.hi + 1, Finset.mem_Icc.mpr ⟨hlo, le_refl _⟩, ⟨(extend_mem _ _ hlo _).mpr (.inr rfl), extend_new _ _, ?_⟩,
          (if_neg hnotin).symm⟩
        intro j hj ej
        rcases (extend_mem _ _ hlo j).mp hj with hj | rfl
        · rw [extend_old _ _ hj] at ej; exact absurd ej (hall j hj)
        · exact le_refl _
      · have hm' := (Arr.mem_idx _ _).mp hm
        refine ⟨m, Finset.mem_Icc.mpr ⟨hm'.1, by omega⟩, ⟨(extend_mem _ _ hlo m).mpr (.inl hm), ?_, ?_⟩, (if_pos hm).symm⟩
        · rw [extend_old _ _ hm]; exact e
        · intro j hj ej
          rcases (extend_mem _ _ hlo j).mp hj with hj | rfl
          · rw [extend_old _ _ hj] at ej; exact h j hj ej
          · omega

theorem getD_inj {d : Int} {x y : Option Int} (hx : ∀ v, x = some v → d < v) (hy : ∀ v, y = some v → d < v) :
    x.getD d = y.getD d ↔ x = y := by
  constructor
  · intro h
    rcases x with _ | a <;> rcases y with _ | b
    · rfl
    · have := hy b rfl; simp only [Option.getD_none, Option.getD_some] at h; omega
    · have := hx a rfl; simp only [Option.getD_none, Option.getD_some] at h; omega
    · simp only [Option.getD_some] at h; rw [h]
  · rintro rfl; rfl

/-- The result of `fzn_arg_val_int_opt` is the position, counted from 1. -/
theorem argValOptCore_iff (xs : Arr (Option Int)) (value : Option Int) (had0 : Bool) (lb : Int) (m : Int)
    (hlo : xs.lo ≤ xs.hi + 1)
    (hl : ∀ i ∈ xs.idx, ∀ v, xs i = some v → lb ≤ v) (hv : ∀ v, value = some v → lb ≤ v) :
    fznArgValOpt xs value had0 lb m ↔ FirstVal xs value (m + xs.lo - 1) := by
  unfold fznArgValOpt
  rw [argValCore_iff]
  have hd := defMax_lt had0 lb
  have hlen := len_eq xs hlo
  have hinj : ∀ i ∈ xs.idx, ((xs i).getD (defMax had0 lb) = value.getD (defMax had0 lb) ↔ xs i = value) := fun i hi =>
    getD_inj (fun v e => lt_of_lt_of_le hd (hl i hi v e)) (fun v e => lt_of_lt_of_le hd (hv v e))
  have hmem : ∀ k, k ∈ (xs.compr (fun x => x.getD (defMax had0 lb))).idx ↔ k + xs.lo - 1 ∈ xs.idx := by
    intro k
    rw [Arr.mem_idx, Arr.mem_idx]
    show (1 : Int) ≤ k ∧ k ≤ xs.len ↔ _
    omega
  have hval : ∀ k, (xs.compr (fun x => x.getD (defMax had0 lb))) k = (xs (k + xs.lo - 1)).getD (defMax had0 lb) := by
    intro k
    show (xs (xs.lo + k - 1)).getD _ = _
    rw [show xs.lo + k - 1 = k + xs.lo - 1 by omega]
  constructor
  · rintro ⟨hm, e, h⟩
    have hm' := (hmem m).mp hm
    refine ⟨hm', (hinj _ hm').mp (by rw [← hval]; exact e), ?_⟩
    intro j hj ej
    have hk : (j - xs.lo + 1) + xs.lo - 1 = j := by omega
    have := h (j - xs.lo + 1) ((hmem _).mpr (by rw [hk]; exact hj)) (by rw [hval, hk]; exact (hinj j hj).mpr ej)
    omega
  · rintro ⟨hm, e, h⟩
    refine ⟨(hmem m).mpr hm, by rw [hval]; exact (hinj _ hm).mpr e, ?_⟩
    intro k hk ek
    have hk' := (hmem k).mp hk
    rw [hval] at ek
    have := h _ hk' ((hinj _ hk').mp ek)
    omega

/-! ## Floats -/

section
variable {α : Type} [LinearOrder α]

/-- Running maximum from `l` on. -/
def runMax (xs : Int → α) (l : Int) : Nat → α
  | 0 => xs l
  | k + 1 => max (xs (l + (k : Int) + 1)) (runMax xs l k)

/-- Index of the running maximum. -/
def runArg (xs : Int → α) (l : Int) : Nat → Int
  | 0 => l
  | k + 1 => if runMax xs l k ≥ xs (l + (k : Int) + 1) then runArg xs l k else l + (k : Int) + 1

theorem run_first (xs : Arr α) (l : Int) (hl : xs.lo = l) (k : Nat) :
    FirstMax ⟨l, l + (k : Int), xs.val⟩ (runArg xs.val l k) ∧ xs (runArg xs.val l k) = runMax xs.val l k := by
  induction k with
  | zero =>
    refine ⟨⟨?_, ?_, ?_⟩, rfl⟩
    · rw [Arr.mem_idx]; simp [runArg]
    · intro j hj
      rw [Arr.mem_idx] at hj
      dsimp only at hj
      have : j = l := by push_cast at hj; omega
      rw [this]; exact le_refl _
    · intro j hj _
      rw [Arr.mem_idx] at hj
      exact hj.1
  | succ k ih =>
    obtain ⟨⟨hm, h1, h2⟩, he⟩ := ih
    rw [Arr.mem_idx] at hm
    dsimp only at hm h1 h2
    have hcase : ∀ j, j ∈ (⟨l, l + ((k + 1 : Nat) : Int), xs.val⟩ : Arr α).idx →
        j ∈ (⟨l, l + (k : Int), xs.val⟩ : Arr α).idx ∨ j = l + (k : Int) + 1 := by
      intro j hj
      rw [Arr.mem_idx] at hj ⊢
      dsimp only at hj ⊢
      push_cast at hj
      omega
    by_cases hc : runMax xs.val l k ≥ xs (l + (k : Int) + 1)
    · have ea : runArg xs.val l (k + 1) = runArg xs.val l k := if_pos hc
      have em : runMax xs.val l (k + 1) = runMax xs.val l k := max_eq_right hc
      rw [ea, em]
      refine ⟨⟨?_, ?_, ?_⟩, he⟩
      · rw [Arr.mem_idx]; dsimp only; push_cast; omega
      · intro j hj
        rcases hcase j hj with hj | rfl
        · exact h1 j hj
        · dsimp only; rw [he]; exact hc
      · intro j hj e
        rcases hcase j hj with hj | rfl
        · exact h2 j hj e
        · omega
    · have ea : runArg xs.val l (k + 1) = l + (k : Int) + 1 := if_neg hc
      have em : runMax xs.val l (k + 1) = xs (l + (k : Int) + 1) := max_eq_left (le_of_lt (not_le.mp hc))
      rw [ea, em]
      refine ⟨⟨?_, ?_, ?_⟩, rfl⟩
      · rw [Arr.mem_idx]; dsimp only; push_cast; omega
      · intro j hj
        rcases hcase j hj with hj | rfl
        · have := h1 j hj
          rw [he] at this
          exact le_trans this (le_of_lt (not_le.mp hc))
        · exact le_refl _
      · intro j hj e
        rcases hcase j hj with hj | rfl
        · have := h1 j hj
          rw [he] at this
          dsimp only at e
          rw [e] at this
          exact absurd this hc
        · exact le_refl _

theorem maximumArgFloat_iff (xs : Arr α) (lb : Int → α) (ly uy : α) (m : Int)
    (hlb : ∀ j ∈ xs.idx, lb j ≤ xs j) (hb : ∀ j ∈ xs.idx, ly ≤ xs j ∧ xs j ≤ uy) :
    fznMaximumArgFloat xs lb ly uy m ↔ FirstMax xs m := by
  unfold fznMaximumArgFloat
  dsimp only
  constructor
  · rintro ⟨hne, h⟩
    by_cases hc : ∃ j ∈ Finset.Icc xs.lo xs.hi, lb j = uy
    · rw [if_pos hc] at h
      obtain ⟨d, ⟨hm, e⟩, hle, -⟩ := h
      refine ⟨hm, fun j hj => by rw [e]; exact (hb j hj).2, fun j hj ej => hle j hj (ej.trans e)⟩
    · rw [if_neg hc] at h
      obtain ⟨y, mi, -, -, y0, m0, rfl, hstep⟩ := h
      have hlo : xs.lo ≤ xs.hi := by obtain ⟨i, hi⟩ := hne; rw [Arr.mem_idx] at hi; omega
      have hrun : ∀ k : Nat, xs.lo + (k : Int) ≤ xs.hi →
          y (xs.lo + (k : Int)) = runMax xs.val xs.lo k ∧ mi (xs.lo + (k : Int)) = runArg xs.val xs.lo k := by
        intro k
        induction k with
        | zero => intro _; simpa [runMax, runArg] using ⟨y0, m0⟩
        | succ k ih =>
          intro hk
          push_cast at hk
          obtain ⟨i1, i2⟩ := ih (by omega)
          have := hstep (xs.lo + (k : Int) + 1) (Finset.mem_Icc.mpr (by omega))
          rw [show xs.lo + (k : Int) + 1 - 1 = xs.lo + (k : Int) by omega, i1, i2] at this
          have e : xs.lo + ((k + 1 : Nat) : Int) = xs.lo + (k : Int) + 1 := by push_cast; omega
          rw [e]
          exact this
      have e : xs.lo + ((xs.hi - xs.lo).toNat : Int) = xs.hi := by omega
      have h1 := (hrun (xs.hi - xs.lo).toNat (by omega)).2
      rw [e] at h1
      rw [h1]
      have := (run_first xs xs.lo rfl (xs.hi - xs.lo).toNat).1
      rw [e] at this
      exact this
  · intro hf
    have hlo : xs.lo ≤ xs.hi := by have := (Arr.mem_idx _ _).mp hf.1; omega
    refine ⟨⟨m, hf.1⟩, ?_⟩
    by_cases hc : ∃ j ∈ Finset.Icc xs.lo xs.hi, lb j = uy
    · rw [if_pos hc]
      obtain ⟨j0, hj0, e0⟩ := hc
      have hx0 : xs j0 = uy := le_antisymm (hb j0 hj0).2 (e0 ▸ hlb j0 hj0)
      have hxm : xs m = uy := le_antisymm (hb m hf.1).2 (hx0 ▸ hf.2.1 j0 hj0)
      refine ⟨fun j => ∃ k, xs.lo ≤ k ∧ k ≤ j ∧ xs k = uy, ⟨hf.1, hxm⟩, ?_, ?_, ?_, ?_⟩
      · intro j hj e; exact hf.2.2 j hj (e.trans hxm.symm)
      · constructor
        · rintro ⟨k, h1, h2, e⟩; rwa [show k = xs.lo by omega] at e
        · intro e; exact ⟨xs.lo, le_refl _, le_refl _, e⟩
      · intro j hj
        rw [Finset.mem_Icc] at hj
        constructor
        · rintro ⟨k, h1, h2, e⟩
          by_cases hk : k = j
          · exact .inr (hk ▸ e)
          · exact .inl ⟨k, h1, by omega, e⟩
        · rintro (⟨k, h1, h2, e⟩ | e)
          · exact ⟨k, h1, by omega, e⟩
          · exact ⟨j, by omega, le_refl _, e⟩
      · intro j hj hd
        by_contra hlt
        exact hd ⟨m, ((Arr.mem_idx _ _).mp hf.1).1, by omega, hxm⟩
    · rw [if_neg hc]
      have hr := run_first xs xs.lo rfl
      have hrm : ∀ k : Nat, xs.lo + (k : Int) ≤ xs.hi → runArg xs.val xs.lo k ∈ xs.idx := by
        intro k hk
        have := (Arr.mem_idx _ _).mp (hr k).1.1
        dsimp only at this
        rw [Arr.mem_idx]; omega
      refine ⟨fun j => runMax xs.val xs.lo (j - xs.lo).toNat, fun j => runArg xs.val xs.lo (j - xs.lo).toNat, ?_, ?_, ?_, ?_, ?_, ?_⟩
      · intro j hj
        rw [Finset.mem_Icc] at hj
        dsimp only
        rw [← (hr (j - xs.lo).toNat).2]
        exact hb _ (hrm _ (by omega))
      · intro j hj
        rw [Finset.mem_Icc] at hj
        exact hrm _ (by omega)
      · dsimp only; rw [show (xs.lo - xs.lo).toNat = 0 by omega]; rfl
      · dsimp only; rw [show (xs.lo - xs.lo).toNat = 0 by omega]; rfl
      · have h1 := (hr (xs.hi - xs.lo).toNat).1
        have e : xs.lo + ((xs.hi - xs.lo).toNat : Int) = xs.hi := by omega
        rw [e] at h1
        exact firstMax_unique hf h1
      · intro j hj
        rw [Finset.mem_Icc] at hj
        dsimp only
        obtain ⟨k, hk⟩ : ∃ k : Nat, j = xs.lo + (k : Int) + 1 := ⟨(j - xs.lo - 1).toNat, by omega⟩
        have e1 : (j - xs.lo).toNat = k + 1 := by omega
        have e2 : (j - 1 - xs.lo).toNat = k := by omega
        rw [e1]
        refine ⟨?_, ?_⟩
        · rw [e2, hk]; rfl
        · subst hk
          show (if _ then _ else _) = _
          simp only [e2]

end

end MZ.Chan
