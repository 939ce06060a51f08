import Verif.LinArith.Model
import Mathlib.Algebra.Order.Ring.Abs

/-! # Lemmas: absolute value, minimum, division, element, multiplication -/

namespace MZ.LinArith

open MZ.LinLib

variable (o : Opts)

theorem bit_le (q : Bool) : (V.bit q).val = 0 ∨ (V.bit q).val = 1 := (V.bit_isB q).val_or

theorem intAbs_iff (x y : V) : intAbs o x y ↔ y.val = |x.val| := by
  unfold intAbs
  have h1 := x.lb_le; have h2 := x.le_ub
  split_ifs with a b
  · rw [abs_of_nonneg (by omega)]
  · rw [abs_of_nonpos (by omega)]
  · constructor
    · rintro ⟨p, h3, h4, -, -, h5, h6, h7⟩
      rw [auxIntLeIf1_iff o _ _ _ (V.bit_isB p)] at h5
      rw [auxIntLeIf0_iff o _ _ _ (V.bit_isB p), V.neg_val] at h6
      rcases bit_le p with h8 | h8
      · have := h6 h8
        rw [abs_of_nonpos (by omega)]; omega
      · have := h5 h8
        rw [abs_of_nonneg (by omega)]; omega
    · intro h
      refine ⟨decide (0 ≤ x.val), ?_⟩
      rw [auxIntLeIf1_iff o _ _ _ (V.bit_isB _), auxIntLeIf0_iff o _ _ _ (V.bit_isB _), V.neg_val,
        intLeReifCV_iff o _ _ _ (V.bit_isB _)]
      rcases le_or_gt 0 x.val with h3 | h3
      · rw [abs_of_nonneg h3] at h
        simp [h3]; omega
      · rw [abs_of_neg h3] at h
        simp [not_le.2 h3]; omega

theorem floatAbs_iff (x y : F) : floatAbs o x y ↔ y.val = |x.val| := by
  unfold floatAbs
  have h1 := x.lb_le; have h2 := x.le_ub
  split_ifs with a b
  · rw [abs_of_nonneg (by linarith)]
  · rw [abs_of_nonpos (by linarith)]
  · push Not at a b
    constructor
    · rintro ⟨p, h3, h4, h0, -, h5, h6⟩
      rw [auxFloatLeIf1_iff o _ _ _ (V.bit_isB p)] at h5
      rw [auxFloatLeIf0_iff o _ _ _ (V.bit_isB p), F.neg_val] at h6
      rcases bit_le p with h8 | h8
      · have := h6 h8
        rw [abs_of_nonpos (by linarith)]; linarith
      · have := h5 h8
        rw [abs_of_nonneg (by linarith)]; linarith
    · intro h
      refine ⟨decide (0 ≤ x.val), ?_⟩
      rw [auxFloatLeIf1_iff o _ _ _ (V.bit_isB _), auxFloatLeIf0_iff o _ _ _ (V.bit_isB _), F.neg_val]
      rcases le_or_gt 0 x.val with h3 | h3
      · rw [abs_of_nonneg h3] at h
        simp only [h3, decide_true, V.bit_val, if_true]
        refine ⟨by linarith, by linarith, by linarith, (by linarith : y.val ≤ x.ub).trans (le_max_left _ _),
          fun _ => by linarith, fun h' => by norm_num at h'⟩
      · rw [abs_of_neg h3] at h
        simp only [not_le.2 h3, decide_false, V.bit_val]
        refine ⟨by linarith, by linarith, by linarith, (by linarith : y.val ≤ -x.lb).trans (le_max_right _ _),
          fun h' => by norm_num at h', fun _ => by linarith⟩

/-! ## Minimum -/

section
variable {α : Type} [LinearOrder α] {n : Nat}

theorem minUB_le (u : Fin (n + 1) → α) (i : Fin (n + 1)) : minUB u ≤ u i := Finset.inf'_le _ (Finset.mem_univ _)

theorem iMinUB_ub (u : Fin (n + 1) → α) : u (iMinUB u) = minUB u := by
  have h : iMinUB u ∈ Finset.univ.filter (fun i => u i = minUB u) := Finset.min'_mem _ (minUB_mem u)
  simpa using h

/-- Some active element has the least upper bound. -/
theorem active_ub (l u : Fin (n + 1) → α) : ∃ i ∈ active l u, u i = minUB u := by
  unfold active
  dsimp only
  split_ifs with h
  · obtain ⟨i, hi⟩ := Finset.card_pos.1 h
    rw [Finset.mem_inter] at hi
    exact ⟨i, hi.1, by simpa using hi.2⟩
  · exact ⟨iMinUB u, by simp, iMinUB_ub u⟩

/-- The other elements cannot be smaller than the least upper bound. -/
theorem not_active (l u : Fin (n + 1) → α) {i : Fin (n + 1)} (h : i ∉ active l u) : minUB u ≤ l i := by
  unfold active at h
  dsimp only at h
  split_ifs at h
  · simpa using h
  · simp at h; exact h.2

variable {v l u : Fin (n + 1) → α} {m : α}

/-- The least value. -/
def IsLeast' (v : Fin (n + 1) → α) (m : α) : Prop := (∀ i, m ≤ v i) ∧ ∃ i, m = v i

theorem single_active (hl : ∀ i, l i ≤ v i) (hu : ∀ i, v i ≤ u i) {k : Fin (n + 1)} (hA : active l u = {k}) :
    IsLeast' v (v k) := by
  refine ⟨fun i => ?_, k, rfl⟩
  obtain ⟨j, hj, hju⟩ := active_ub l u
  rw [hA, Finset.mem_singleton] at hj
  subst hj
  by_cases hi : i ∈ active l u
  · rw [hA, Finset.mem_singleton] at hi
    rw [hi]
  · exact (hu j).trans (hju.le.trans ((not_active l u hi).trans (hl i)))

theorem least_iff (hl : ∀ i, l i ≤ v i) (hu : ∀ i, v i ≤ u i) :
    IsLeast' v m ↔ m ≤ minUB u ∧ (∀ i ∈ active l u, m ≤ v i) ∧ ∃ i ∈ active l u, m = v i := by
  obtain ⟨j, hj, hju⟩ := active_ub l u
  constructor
  · rintro ⟨h1, k, h2⟩
    refine ⟨(h1 j).trans ((hu j).trans hju.le), fun i _ => h1 i, ?_⟩
    by_cases hk : k ∈ active l u
    · exact ⟨k, hk, h2⟩
    · refine ⟨j, hj, le_antisymm (h1 j) ?_⟩
      rw [h2]
      exact (hu j).trans (hju.le.trans ((not_active l u hk).trans (hl k)))
  · rintro ⟨h1, h2, i, -, h3⟩
    refine ⟨fun k => ?_, i, h3⟩
    by_cases hk : k ∈ active l u
    · exact h2 k hk
    · exact h1.trans ((not_active l u hk).trans (hl k))

end

theorem min'_singleton_of {n : Nat} {A : Finset (Fin (n + 1))} (h : A.card = 1) (hn : A.Nonempty) : A = {A.min' hn} := by
  obtain ⟨a, ha⟩ := Finset.card_eq_one.1 h
  subst ha
  simp

/-- Exactly one of the flags of the elements of `A` is set. -/
theorem one_flag {ι : Type} [DecidableEq ι] {A : Finset ι} {p : ι → Int} (hp : ∀ i ∈ A, p i = 0 ∨ p i = 1)
    (h : ∑ i ∈ A, p i = 1) : ∃ k ∈ A, p k = 1 ∧ ∀ i ∈ A, i ≠ k → p i = 0 := by
  have h1 : ∃ k ∈ A, p k = 1 := by
    by_contra hc
    push Not at hc
    have : ∑ i ∈ A, p i = 0 := Finset.sum_eq_zero fun i hi => (hp i hi).resolve_right (hc i hi)
    omega
  obtain ⟨k, hk, hk1⟩ := h1
  refine ⟨k, hk, hk1, fun i hi hne => ?_⟩
  rcases hp i hi with h2 | h2
  · exact h2
  · have h3 := Finset.sum_erase_add A p hk
    have h4 : p i ≤ ∑ j ∈ A.erase k, p j := by
      refine Finset.single_le_sum (f := p) (fun j hj => ?_) (Finset.mem_erase.2 ⟨hne, hi⟩)
      rcases hp j (Finset.mem_of_mem_erase hj) with h5 | h5 <;> omega
    omega

theorem sum_active {n : Nat} (A : Finset (Fin (n + 1))) (p : Fin (n + 1) → Bool) :
    ∑ i, (if i ∈ A then (V.bit (p i)).val else 0) = ∑ i ∈ A, (V.bit (p i)).val := by
  rw [← Finset.sum_filter]
  congr 1
  ext i; simp

theorem sum_single {ι : Type} [DecidableEq ι] {A : Finset ι} {k : ι} (hk : k ∈ A) :
    ∑ i ∈ A, (V.bit (decide (i = k))).val = 1 := by
  rw [Finset.sum_eq_single k]
  · simp
  · intro i _ hi; simp [hi]
  · intro h; exact absurd hk h

theorem inf'_le_of {n : Nat} {α : Type} [LinearOrder α] {l v : Fin (n + 1) → α} {m : α} (hl : ∀ i, l i ≤ v i)
    (h : ∃ i, m = v i) (hne : (Finset.univ : Finset (Fin (n + 1))).Nonempty) : Finset.univ.inf' hne l ≤ m := by
  obtain ⟨i, rfl⟩ := h
  exact (Finset.inf'_le _ (Finset.mem_univ i)).trans (hl i)

theorem arrayIntMinI_iff (gen : Bool) {n : Nat} (m : V) (x : Fin (n + 1) → V) :
    arrayIntMinI o gen m x ↔ IsLeast' (fun i => (x i).val) m.val := by
  unfold arrayIntMinI
  dsimp only
  have hl : ∀ i, (x i).lb ≤ (x i).val := fun i => (x i).lb_le
  have hu : ∀ i, (x i).val ≤ (x i).ub := fun i => (x i).le_ub
  split_ifs with h hg
  · have h1 := single_active hl hu (min'_singleton_of h (Finset.card_pos.1 (by omega)))
    constructor
    · intro h2; rw [h2]; exact h1
    · rintro ⟨h2, i, h3⟩
      refine le_antisymm (h2 _) ?_
      rw [h3]; exact h1.1 i
  · rfl
  · rw [least_iff hl hu]
    constructor
    · rintro ⟨p, h1, -, h2, h3⟩
      rw [sum_active] at h1
      obtain ⟨k, hk, hk1, -⟩ := one_flag (fun i _ => bit_le (p i)) h1.symm
      refine ⟨h2, fun i hi => (h3 i hi).1, k, hk, ?_⟩
      have := (h3 k hk).2
      rw [auxIntGeIf1_iff o _ _ _ (V.bit_isB _)] at this
      exact le_antisymm (h3 k hk).1 (this hk1)
    · rintro ⟨h1, h2, k, hk, h3⟩
      refine ⟨fun i => decide (i = k), ?_, inf'_le_of hl ⟨k, h3⟩ _, h1, fun i hi => ⟨h2 i hi, ?_⟩⟩
      · rw [sum_active]; exact (sum_single hk).symm
      · rw [auxIntGeIf1_iff o _ _ _ (V.bit_isB _)]
        intro h4
        have : i = k := by by_contra hc; simp [hc] at h4
        rw [this]; exact h3.ge

/-- The cuts hold if exactly one flag is set and `z` is the element with that flag. -/
theorem xbzLb_valid {ι : Type} [LinearOrder ι] (cutgen : Bool) (s : Finset ι) (x : ι → F) (b : ι → Int) (k : ι)
    (hk : k ∈ s) (h1 : b k = 1) (h0 : ∀ i ∈ s, i ≠ k → b i = 0) : xbzLb cutgen s x b (x k).val := by
  unfold xbzLb
  split_ifs
  have hlb : ∀ i, 0 ≤ (x i).val - (x i).lb := fun i => by have := (x i).lb_le; linarith
  -- a sum with the factor `b` is its term at `k`
  have key : ∀ (A : Finset ι) (f : ι → ℚ), A ⊆ s → k ∈ A → ∑ i ∈ A, f i * (b i : ℚ) = f k := by
    intro A f hA hkA
    rw [Finset.sum_eq_single k]
    · rw [h1]; simp
    · intro i hi hne; rw [h0 i (hA hi) hne]; simp
    · intro h; exact absurd hkA h
  have key2 : ∀ (A : Finset ι), A ⊆ s → k ∈ A →
      (x k).val ≤ ∑ j ∈ A, ((x j).val + (x j).lb * ((b j : ℚ) - 1)) := by
    intro A hA hkA
    rw [← Finset.add_sum_erase A _ hkA, h1]
    have : 0 ≤ ∑ j ∈ A.erase k, ((x j).val + (x j).lb * ((b j : ℚ) - 1)) := by
      refine Finset.sum_nonneg fun j hj => ?_
      rw [h0 j (hA (Finset.mem_of_mem_erase hj)) (Finset.ne_of_mem_erase hj)]
      have := hlb j
      push_cast
      linarith
    push_cast
    linarith
  refine ⟨?_, ?_, ?_, key2 s (Finset.Subset.refl _) hk⟩
  · rw [key s _ (Finset.Subset.refl _) hk]; exact (x k).le_ub
  · intro i _
    by_cases hi : i = k
    · subst hi
      rw [Finset.sum_eq_zero]
      · simp
      · intro j hj
        rw [h0 j (Finset.mem_of_mem_erase hj) (Finset.ne_of_mem_erase hj)]; simp
    · rw [key (s.erase i) _ (Finset.erase_subset _ _) (Finset.mem_erase.2 ⟨fun h => hi h.symm, hk⟩)]
      have := (x k).le_ub; have := (x i).lb_le
      linarith
  · intro i hi
    have hi' : i ∈ s := (Finset.mem_sort _).1 (List.mem_of_mem_take hi)
    by_cases hik : i = k
    · subst hik
      rw [h1]
      have : 0 ≤ ∑ j ∈ s.erase i, ((x j).val + (x j).lb * ((b j : ℚ) - 1)) := by
        refine Finset.sum_nonneg fun j hj => ?_
        rw [h0 j (Finset.mem_of_mem_erase hj) (Finset.ne_of_mem_erase hj)]
        have := hlb j
        push_cast
        linarith
      have := (x i).le_ub
      push_cast
      linarith
    · rw [h0 i hi' hik]
      have := key2 (s.erase i) (Finset.erase_subset _ _) (Finset.mem_erase.2 ⟨fun h => hik h.symm, hk⟩)
      push_cast
      linarith

theorem arrayFloatMinI_iff (gen cuts cutgen : Bool) {n : Nat} (m : F) (x : Fin (n + 1) → F) :
    arrayFloatMinI o gen cuts cutgen m x ↔ IsLeast' (fun i => (x i).val) m.val := by
  unfold arrayFloatMinI
  dsimp only
  have hl : ∀ i, (x i).lb ≤ (x i).val := fun i => (x i).lb_le
  have hu : ∀ i, (x i).val ≤ (x i).ub := fun i => (x i).le_ub
  split_ifs with h hg hc
  · have h1 := single_active hl hu (min'_singleton_of h (Finset.card_pos.1 (by omega)))
    constructor
    · intro h2; rw [h2]; exact h1
    · rintro ⟨h2, i, h3⟩
      refine le_antisymm (h2 _) ?_
      rw [h3]; exact h1.1 i
  · rfl
  all_goals
    rw [least_iff hl hu]
    constructor
    · rintro ⟨p, h1, -, h2, h3, -⟩
      rw [sum_active] at h1
      obtain ⟨k, hk, hk1, -⟩ := one_flag (fun i _ => bit_le (p i)) h1.symm
      refine ⟨h2, fun i hi => (h3 i hi).1, k, hk, ?_⟩
      have := (h3 k hk).2
      rw [auxFloatGeIf1_iff o _ _ _ (V.bit_isB _)] at this
      exact le_antisymm (h3 k hk).1 (this hk1)
    · rintro ⟨h1, h2, k, hk, h3⟩
      refine ⟨fun i => decide (i = k), ?_, inf'_le_of hl ⟨k, h3⟩ _, h1, fun i hi => ⟨h2 i hi, ?_⟩, ?_⟩
      · rw [sum_active]; exact (sum_single hk).symm
      · rw [auxFloatGeIf1_iff o _ _ _ (V.bit_isB _)]
        intro h4
        have : i = k := by by_contra hc; simp [hc] at h4
        rw [this]; exact h3.ge
      · first
        | trivial
        | (rw [h3]
           exact xbzLb_valid cutgen _ (fun i => (x i).neg) _ k hk (by simp) (fun i _ hi => by simp [hi]))

/-! ## Division -/

theorem tmod_nonpos (x y : Int) (h : x ≤ 0) : x.tmod y ≤ 0 := by
  have h1 := Int.tmod_nonneg (a := -x) y (by omega)
  rw [Int.neg_tmod] at h1
  omega

theorem tmod_bounds (x y : Int) (hy : y ≠ 0) : -|y| < x.tmod y ∧ x.tmod y < |y| := by
  have h1 : ((x.tmod y).natAbs : Int) < |y| := by
    rw [Int.natAbs_tmod, Int.abs_eq_natAbs]
    exact_mod_cast Nat.mod_lt _ (Int.natAbs_pos.2 hy)
  omega

theorem divMod_of {x y q r : Int} (hy : y ≠ 0) (h : x = y * q + r) (h0 : 0 ≤ x → 0 ≤ r) (h1 : x < 0 → r ≤ 0)
    (h2 : |y| > r) (h3 : |y| > -r) : q = x.tdiv y ∧ r = x.tmod y := by
  have e := Int.mul_tdiv_add_tmod x y
  have hb := tmod_bounds x y hy
  have hs0 : 0 ≤ x → 0 ≤ x.tmod y := fun h => Int.tmod_nonneg y h
  have hs1 : x < 0 → x.tmod y ≤ 0 := fun h => tmod_nonpos x y h.le
  have hd : |y| ∣ r - x.tmod y := by
    rw [abs_dvd]
    exact ⟨x.tdiv y - q, by rw [mul_sub]; linarith⟩
  have hz : r - x.tmod y = 0 := by
    refine Int.eq_zero_of_abs_lt_dvd hd ?_
    rw [abs_lt]
    rcases lt_or_ge x 0 with hx | hx
    · have := hs1 hx; have := h1 hx; constructor <;> omega
    · have := hs0 hx; have := h0 hx; constructor <;> omega
  refine ⟨?_, by omega⟩
  have : y * q = y * x.tdiv y := by linarith
  exact mul_left_cancel₀ hy this

/-- The value is between two others. -/
def Btw (a b c : Int) : Prop := min a b ≤ c ∧ c ≤ max a b

theorem Btw.of {a b c : Int} (h : (a ≤ c ∧ c ≤ b) ∨ (b ≤ c ∧ c ≤ a)) : Btw a b c := by
  unfold Btw
  rcases h with h | h
  · exact ⟨(min_le_left _ _).trans h.1, h.2.trans (le_max_right _ _)⟩
  · exact ⟨(min_le_right _ _).trans h.1, h.2.trans (le_max_left _ _)⟩

/-- A value between values between the corners is between the least and the greatest corner. -/
theorem btw_corners {a1 a2 b1 b2 a b c : Int} (ha : Btw a1 a2 a) (hb : Btw b1 b2 b) (h : Btw a b c)
    (s : Finset Int) (hs : s.Nonempty) (h1 : a1 ∈ s) (h2 : a2 ∈ s) (h3 : b1 ∈ s) (h4 : b2 ∈ s) :
    s.min' hs ≤ c ∧ c ≤ s.max' hs := by
  have l1 := s.min'_le _ h1; have l2 := s.min'_le _ h2; have l3 := s.min'_le _ h3; have l4 := s.min'_le _ h4
  have u1 := s.le_max' _ h1; have u2 := s.le_max' _ h2; have u3 := s.le_max' _ h3; have u4 := s.le_max' _ h4
  unfold Btw at *
  omega

theorem tdiv_btw_x {l u x y : Int} (hy : y ≠ 0) (h1 : l ≤ x) (h2 : x ≤ u) : Btw (l.tdiv y) (u.tdiv y) (x.tdiv y) := by
  rcases lt_or_gt_of_ne hy with h | h
  · refine Btw.of (Or.inr ?_)
    have e : ∀ a : Int, a.tdiv (-y) = -(a.tdiv y) := fun a => Int.tdiv_neg a y
    have a := Int.tdiv_le_tdiv (c := -y) (by omega) h1
    have b := Int.tdiv_le_tdiv (c := -y) (by omega) h2
    rw [e, e] at a b
    constructor <;> omega
  · exact Btw.of (Or.inl ⟨Int.tdiv_le_tdiv h h1, Int.tdiv_le_tdiv h h2⟩)

theorem tdiv_anti {x a b : Int} (hx : 0 ≤ x) (ha : 0 < a) (hab : a ≤ b) : x.tdiv b ≤ x.tdiv a := by
  rw [Int.tdiv_eq_ediv_of_nonneg hx, Int.tdiv_eq_ediv_of_nonneg hx]
  have hb : 0 < b := by omega
  rw [Int.le_ediv_iff_mul_le ha]
  have h1 := Int.ediv_mul_le x (show b ≠ 0 by omega)
  have h2 : 0 ≤ x / b := Int.ediv_nonneg hx hb.le
  nlinarith

theorem tdiv_btw_pos {x l u y : Int} (hl : 0 < l) (h1 : l ≤ y) (h2 : y ≤ u) : Btw (x.tdiv l) (x.tdiv u) (x.tdiv y) := by
  rcases le_or_gt 0 x with h | h
  · exact Btw.of (Or.inr ⟨tdiv_anti h (by omega) h2, tdiv_anti h hl h1⟩)
  · have e : ∀ a : Int, (-x).tdiv a = -(x.tdiv a) := fun a => Int.neg_tdiv x a
    have a := tdiv_anti (x := -x) (by omega) hl h1
    have b := tdiv_anti (x := -x) (by omega) (show 0 < y by omega) h2
    rw [e, e] at a b
    exact Btw.of (Or.inl ⟨by omega, by omega⟩)

theorem tdiv_btw_y {x l u y : Int} (h : l * u > 0) (h1 : l ≤ y) (h2 : y ≤ u) : Btw (x.tdiv l) (x.tdiv u) (x.tdiv y) := by
  rcases lt_trichotomy l 0 with hl | hl | hl
  · have hu : u < 0 := by by_contra hc; nlinarith
    have := tdiv_btw_pos (x := x) (l := -u) (u := -l) (y := -y) (by omega) (by omega) (by omega)
    rw [Int.tdiv_neg, Int.tdiv_neg, Int.tdiv_neg] at this
    unfold Btw at *
    omega
  · rw [hl] at h; omega
  · exact tdiv_btw_pos hl h1 h2

theorem mem_domQ (x y : V) (hy : y.val ≠ 0) : x.val.tdiv y.val ∈ domQ x y := by
  unfold domQ
  have h1 := x.lb_le; have h2 := x.le_ub; have h3 := y.lb_le; have h4 := y.le_ub
  split_ifs with h
  · dsimp only
    rw [Finset.mem_Icc]
    have hlu : y.lb ≠ 0 ∧ y.ub ≠ 0 := by constructor <;> intro h' <;> rw [h'] at h <;> simp at h
    exact btw_corners (tdiv_btw_x hlu.1 h1 h2) (tdiv_btw_x hlu.2 h1 h2) (tdiv_btw_y h h3 h4) _ _
      (by simp) (by simp) (by simp) (by simp)
  · dsimp only
    rw [Finset.mem_Icc]
    have h5 := Int.natAbs_tdiv_le_natAbs x.val y.val
    have h6 := abs_le.1 (le_max_left |x.lb| |x.ub|)
    have h7 := abs_le.1 (le_max_right |x.lb| |x.ub|)
    omega

theorem divMod_iff (x y : V) (q r : Int) :
    divMod x y q r ↔ y.val ≠ 0 ∧ q = x.val.tdiv y.val ∧ r = x.val.tmod y.val := by
  unfold divMod
  dsimp only
  constructor
  · rintro ⟨-, -, h1, h2, h3, w, hw, rfl, h4, h5⟩
    have hy : y.val ≠ 0 := by
      intro h; rw [h, Finset.mem_Icc] at hw; simp at hw
    exact ⟨hy, divMod_of hy h1 h2 h3 h4 h5⟩
  · rintro ⟨hy, rfl, rfl⟩
    have hb := tmod_bounds x.val y.val hy
    have h3 := y.lb_le; have h4 := y.le_ub
    have h6 := abs_le.1 (le_max_left |y.lb| |y.ub|)
    have h7 := abs_le.1 (le_max_right |y.lb| |y.ub|)
    have h8 : |y.val| ≤ max |y.lb| |y.ub| := abs_le.2 ⟨by omega, by omega⟩
    have h9 : 0 < |y.val| := abs_pos.2 hy
    refine ⟨mem_domQ x y hy, Finset.mem_Icc.2 ⟨by omega, by omega⟩, (Int.mul_tdiv_add_tmod _ _).symm,
      fun h => Int.tmod_nonneg _ h, fun h => tmod_nonpos _ _ h.le, _, Finset.mem_Icc.2 ⟨by omega, h8⟩, rfl, ?_, ?_⟩ <;> omega

/-! ## Element -/

theorem restrict_val (x : V) (s : Finset Int) (h : x.val ∈ s) : (restrict x s h).val = x.val := rfl

theorem eq_of_inf_eq_sup {α : Type} [LinearOrder α] {s : Finset Int} {hs : s.Nonempty} {f : Int → α}
    (h : s.inf' hs f = s.sup' hs f) {i : Int} (hi : i ∈ s) : f i = s.inf' hs f :=
  le_antisymm ((Finset.le_sup' f hi).trans h.ge) (Finset.inf'_le f hi)

theorem linear_case {R : Type} [CommRing R] {f : Int → R} {l u : Int} {d : R}
    (h : ∀ i ∈ Finset.Icc l (u - 1), f (i + 1) - f i = d) (i : Int) (h1 : l ≤ i) (h2 : i ≤ u) :
    f i = f l + d * ((i - l : Int) : R) := by
  revert h2
  induction i, h1 using Int.le_induction with
  | base => intro _; simp
  | succ i hi ih =>
    intro h2
    have h3 := h i (Finset.mem_Icc.2 ⟨hi, by omega⟩)
    have h4 := ih (by omega)
    have : f (i + 1) = f i + d := by rw [← h3]; ring
    rw [this, h4]
    push_cast
    ring

theorem sum_enc {R : Type} [CommRing R] {x : V} {q : Int → Int} (h : EqEncode o x q) (f : Int → R) :
    ∑ i ∈ x.dom, f i * (q i : R) = f x.val := by
  have h1 := (eqEncode_iff o x q).1 h
  have h2 : ∀ d ∈ x.dom, q d = if d = x.val then 1 else 0 := fun d hd =>
    h1 d (Finset.mem_Icc.2 ⟨x.lb_le_of hd, x.le_ub_of hd⟩)
  rw [Finset.sum_eq_single x.val]
  · rw [h2 _ x.mem]; simp
  · intro d hd hne; rw [h2 d hd, if_neg hne]; simp
  · intro h'; exact absurd x.mem h'

theorem enc_at {x : V} {q : Int → Int} (h : EqEncode o x q) {d : Int} (hd : d ∈ x.dom) :
    q d = if d = x.val then 1 else 0 :=
  (eqEncode_iff o x q).1 h d (Finset.mem_Icc.2 ⟨x.lb_le_of hd, x.le_ub_of hd⟩)

theorem arrayIntElement_iff (idx : V) (lo hi : Int) (xs : Int → Int) (y : V) :
    arrayIntElement o idx lo hi xs y ↔ (lo ≤ idx.val ∧ idx.val ≤ hi) ∧ y.val = xs idx.val := by
  unfold arrayIntElement
  dsimp only
  constructor
  · rintro ⟨h, hb⟩
    have hr := Finset.mem_Icc.1 (Finset.mem_filter.1 h).1
    refine ⟨hr, ?_⟩
    generalize hd : restrict idx _ h = d at hb
    have hv : d.val = idx.val := by rw [← hd]; rfl
    rw [← hv]
    have h1 := d.lb_le; have h2 := d.le_ub
    split_ifs at hb with a c e
    · rw [hb, eq_of_inf_eq_sup a d.mem]
    · obtain ⟨-, -, hb⟩ := hb
      rw [hb, linear_case (R := Int) (u := d.ub) (fun i hi => eq_of_inf_eq_sup e hi) d.val h1 h2]
      simp
    · obtain ⟨-, -, p, hp, hs⟩ := hb
      rw [← hs]
      exact (sum_enc o hp xs).symm ▸ rfl
    · exact absurd hb.2.2 id
  · rintro ⟨hr, hy⟩
    have h : idx.val ∈ (Finset.Icc lo hi).filter (fun i => xs i ∈ y.dom) := by
      rw [Finset.mem_filter, Finset.mem_Icc]
      exact ⟨hr, hy ▸ y.mem⟩
    refine ⟨h, ?_⟩
    generalize hd : restrict idx _ h = d
    have hv : d.val = idx.val := by rw [← hd]; rfl
    rw [← hv] at hy
    have h1 := d.lb_le; have h2 := d.le_ub
    split_ifs with a c e
    · rw [hy, eq_of_inf_eq_sup a d.mem]
    · refine ⟨hy ▸ Finset.inf'_le _ d.mem, hy ▸ Finset.le_sup' _ d.mem, ?_⟩
      rw [hy, linear_case (R := Int) (u := d.ub) (fun i hi => eq_of_inf_eq_sup e hi) d.val h1 h2]
      simp
    · refine ⟨hy ▸ Finset.inf'_le _ d.mem, hy ▸ Finset.le_sup' _ d.mem, ?_⟩
      obtain ⟨p, hp⟩ := exists_eqEncode o d
      exact ⟨p, hp, (sum_enc o hp xs).trans hy.symm⟩
    · exfalso
      apply a
      have hlu : d.lb = d.ub := by
        by_contra hne
        exact c ⟨d.lb, Finset.mem_Icc.2 ⟨le_refl _, by omega⟩⟩
      have hall : ∀ i ∈ d.dom, xs i = xs d.lb := fun i hi => by
        have := d.lb_le_of hi; have := d.le_ub_of hi
        rw [show i = d.lb by omega]
      apply le_antisymm
      · exact (Finset.inf'_le xs d.mem).trans (Finset.le_sup' xs d.mem)
      · rw [Finset.sup'_le_iff]
        intro i hi
        rw [Finset.le_inf'_iff]
        intro j hj
        rw [hall i hi, hall j hj]

theorem arrayFloatElement_iff (idx : V) (lo hi : Int) (xs : Int → ℚ) (y : F) :
    arrayFloatElement o idx lo hi xs y ↔ (lo ≤ idx.val ∧ idx.val ≤ hi) ∧ y.val = xs idx.val := by
  unfold arrayFloatElement
  dsimp only
  constructor
  · rintro ⟨h, hb⟩
    have hr := Finset.mem_Icc.1 (Finset.mem_filter.1 h).1
    refine ⟨hr, ?_⟩
    generalize hd : restrict idx _ h = d at hb
    have hv : d.val = idx.val := by rw [← hd]; rfl
    rw [← hv]
    have h1 := d.lb_le; have h2 := d.le_ub
    split_ifs at hb with a c e
    · rw [hb, eq_of_inf_eq_sup a d.mem]
    · obtain ⟨-, -, hb⟩ := hb
      rw [hb, linear_case (R := ℚ) (u := d.ub) (fun i hi => eq_of_inf_eq_sup e hi) d.val h1 h2]
    · obtain ⟨-, -, p, hp, hs⟩ := hb
      rw [← hs]
      exact (sum_enc o hp xs).symm ▸ rfl
    · exact absurd hb.2.2 id
  · rintro ⟨hr, hy⟩
    have h : idx.val ∈ (Finset.Icc lo hi).filter (fun i => xs i ≥ y.lb ∧ xs i ≤ y.ub) := by
      rw [Finset.mem_filter, Finset.mem_Icc]
      exact ⟨hr, hy ▸ y.lb_le, hy ▸ y.le_ub⟩
    refine ⟨h, ?_⟩
    generalize hd : restrict idx _ h = d
    have hv : d.val = idx.val := by rw [← hd]; rfl
    rw [← hv] at hy
    have h1 := d.lb_le; have h2 := d.le_ub
    split_ifs with a c e
    · rw [hy, eq_of_inf_eq_sup a d.mem]
    · refine ⟨hy ▸ Finset.inf'_le _ d.mem, hy ▸ Finset.le_sup' _ d.mem, ?_⟩
      rw [hy, linear_case (R := ℚ) (u := d.ub) (fun i hi => eq_of_inf_eq_sup e hi) d.val h1 h2]
    · refine ⟨hy ▸ Finset.inf'_le _ d.mem, hy ▸ Finset.le_sup' _ d.mem, ?_⟩
      obtain ⟨p, hp⟩ := exists_eqEncode o d
      exact ⟨p, hp, (sum_enc o hp xs).trans hy.symm⟩
    · exfalso
      apply a
      have hlu : d.lb = d.ub := by
        by_contra hne
        exact c ⟨d.lb, Finset.mem_Icc.2 ⟨le_refl _, by omega⟩⟩
      have hall : ∀ i ∈ d.dom, xs i = xs d.lb := fun i hi => by
        have := d.lb_le_of hi; have := d.le_ub_of hi
        rw [show i = d.lb by omega]
      apply le_antisymm
      · exact (Finset.inf'_le xs d.mem).trans (Finset.le_sup' xs d.mem)
      · rw [Finset.sup'_le_iff]
        intro i hi
        rw [Finset.le_inf'_iff]
        intro j hj
        rw [hall i hi, hall j hj]

theorem flagOf_val {v : Int} (h : v = 0 ∨ v = 1) : (flagOf v).val = v := by
  rcases h with rfl | rfl <;> simp [flagOf]

theorem flagOf_isB (v : Int) : (flagOf v).IsB := V.bit_isB _

theorem flagOf_one {v : Int} : (flagOf v).val = 1 ↔ v = 1 := by
  by_cases h : v = 1 <;> simp [flagOf, h]

theorem dom01 {d : V} (h : {0, 1} = d.dom) : d.lb = 0 ∧ d.ub = 1 ∧ (d.val = 0 ∨ d.val = 1) := by
  have h1 := d.lb_mem; have h2 := d.ub_mem; have h3 := d.mem
  have h4 := d.lb_le_of (c := 0) (by rw [← h]; simp)
  have h5 := d.le_ub_of (c := 1) (by rw [← h]; simp)
  rw [← h] at h1 h2 h3
  simp at h1 h2 h3
  omega

theorem sub_isB {d : V} (h : {0, 1} = d.dom) : ((V.const d.ub).sub d).IsB ∧ (d.addC (-d.lb)).IsB := by
  obtain ⟨h1, h2, -⟩ := dom01 h
  constructor
  · intro c hc
    have hc : c ∈ Finset.Icc ((V.const d.ub).lb - d.ub) ((V.const d.ub).ub - d.lb) := hc
    rw [V.const_lb, V.const_ub, h1, h2, Finset.mem_Icc] at hc
    simp; omega
  · intro c hc
    have hc : c ∈ Finset.Icc (d.lb + -d.lb) (d.ub + -d.lb) := hc
    rw [h1, h2, Finset.mem_Icc] at hc
    simp; omega

theorem fixed_all {s : Finset Int} {hs : s.Nonempty} {α : Type} [LinearOrder α] {l u v : Int → α}
    (hl : ∀ i, l i ≤ v i) (hu : ∀ i, v i ≤ u i) (h : s.inf' hs l = s.sup' hs u) {i : Int} (hi : i ∈ s) :
    v i = s.inf' hs l :=
  le_antisymm ((hu i).trans ((Finset.le_sup' u hi).trans h.ge)) ((Finset.inf'_le l hi).trans (hl i))

theorem arrayVarIntElement_iff (idx : V) (lo hi : Int) (xs : Int → V) (y : V) :
    arrayVarIntElement o idx lo hi xs y ↔ (lo ≤ idx.val ∧ idx.val ≤ hi) ∧ y.val = (xs idx.val).val := by
  unfold arrayVarIntElement
  dsimp only
  have hl : ∀ i, (xs i).lb ≤ (xs i).val := fun i => (xs i).lb_le
  have hu : ∀ i, (xs i).val ≤ (xs i).ub := fun i => (xs i).le_ub
  constructor
  · rintro ⟨h, hb⟩
    have hr := Finset.mem_Icc.1 (Finset.mem_filter.1 h).1
    refine ⟨hr, ?_⟩
    generalize hd : restrict idx _ h = d at hb
    have hv : d.val = idx.val := by rw [← hd]; rfl
    rw [← hv]
    split_ifs at hb with a c
    · rw [hb]; exact (fixed_all hl hu a d.mem).symm
    · obtain ⟨-, -, hb1, hb2⟩ := hb
      obtain ⟨e1, e2, e3⟩ := dom01 c
      rw [auxIntEqIf1_iff o _ _ _ (sub_isB c).1, V.sub_val, V.const_val] at hb1
      rw [auxIntEqIf1_iff o _ _ _ (sub_isB c).2, V.addC_val] at hb2
      rcases e3 with e3 | e3
      · rw [hb1 (by omega), e1, e3]
      · rw [hb2 (by omega), e2, e3]
    · obtain ⟨-, -, p, hp, hs⟩ := hb
      have := hs d.val d.mem
      rw [auxIntEqIf1_iff o _ _ _ (flagOf_isB _), flagOf_one, enc_at o hp d.mem] at this
      simpa using this
  · rintro ⟨hr, hy⟩
    have h : idx.val ∈ (Finset.Icc lo hi).filter (fun i => 0 < ((xs i).dom ∩ y.dom).card) := by
      rw [Finset.mem_filter, Finset.mem_Icc]
      refine ⟨hr, Finset.card_pos.2 ⟨y.val, Finset.mem_inter.2 ⟨hy ▸ (xs idx.val).mem, y.mem⟩⟩⟩
    refine ⟨h, ?_⟩
    generalize hd : restrict idx _ h = d
    have hv : d.val = idx.val := by rw [← hd]; rfl
    rw [← hv] at hy
    have b1 := (Finset.inf'_le (fun i => (xs i).lb) d.mem).trans (hl d.val)
    have b2 := (hu d.val).trans (Finset.le_sup' (fun i => (xs i).ub) d.mem)
    split_ifs with a c
    · rw [hy]; exact fixed_all hl hu a d.mem
    · refine ⟨hy ▸ b1, hy ▸ b2, ?_, ?_⟩
      · obtain ⟨e1, e2, e3⟩ := dom01 c
        rw [auxIntEqIf1_iff o _ _ _ (sub_isB c).1, V.sub_val, V.const_val]
        intro e4
        rw [hy, show d.val = d.lb by omega]
      · obtain ⟨e1, e2, e3⟩ := dom01 c
        rw [auxIntEqIf1_iff o _ _ _ (sub_isB c).2, V.addC_val]
        intro e4
        rw [hy, show d.val = d.ub by omega]
    · refine ⟨hy ▸ b1, hy ▸ b2, ?_⟩
      obtain ⟨p, hp⟩ := exists_eqEncode o d
      refine ⟨p, hp, fun i hi => ?_⟩
      rw [auxIntEqIf1_iff o _ _ _ (flagOf_isB _), flagOf_one, enc_at o hp hi]
      intro h'
      have : i = d.val := by by_contra hc; simp [hc] at h'
      rw [this, hy]

theorem arrayVarFloatElement_iff (cuts cutgen : Bool) (idx : V) (lo hi : Int) (xs : Int → F) (y : F) :
    arrayVarFloatElement o cuts cutgen idx lo hi xs y ↔ (lo ≤ idx.val ∧ idx.val ≤ hi) ∧ y.val = (xs idx.val).val := by
  unfold arrayVarFloatElement
  dsimp only
  have hl : ∀ i, (xs i).lb ≤ (xs i).val := fun i => (xs i).lb_le
  have hu : ∀ i, (xs i).val ≤ (xs i).ub := fun i => (xs i).le_ub
  constructor
  · rintro ⟨h, hb⟩
    have hr := Finset.mem_Icc.1 (Finset.mem_filter.1 h).1
    refine ⟨hr, ?_⟩
    generalize hd : restrict idx _ h = d at hb
    have hv : d.val = idx.val := by rw [← hd]; rfl
    rw [← hv]
    by_cases a : d.dom.inf' d.dom_ne (fun i => (xs i).lb) = d.dom.sup' d.dom_ne (fun i => (xs i).ub)
    · rw [if_pos a] at hb
      rw [hb]; exact (fixed_all hl hu a d.mem).symm
    · rw [if_neg a] at hb
      obtain ⟨-, -, hb⟩ := hb
      by_cases c : {0, 1} = d.dom
      · rw [if_pos c] at hb
        obtain ⟨hb1, hb2⟩ := hb
        obtain ⟨e1, e2, e3⟩ := dom01 c
        rw [auxFloatEqIf1_iff o _ _ _ (sub_isB c).1, V.sub_val, V.const_val] at hb1
        rw [auxFloatEqIf1_iff o _ _ _ (sub_isB c).2, V.addC_val] at hb2
        rcases e3 with e3 | e3
        · rw [hb1 (by omega), e1, e3]
        · rw [hb2 (by omega), e2, e3]
      · rw [if_neg c] at hb
        obtain ⟨p, hp, hs, -⟩ := hb
        have := hs d.val d.mem
        rw [auxFloatEqIf1_iff o _ _ _ (flagOf_isB _), flagOf_one, enc_at o hp d.mem] at this
        simpa using this
  · rintro ⟨hr, hy⟩
    have h : idx.val ∈ (Finset.Icc lo hi).filter (fun i => (xs i).lb ≤ y.ub ∧ (xs i).ub ≥ y.lb) := by
      rw [Finset.mem_filter, Finset.mem_Icc]
      have := y.lb_le; have := y.le_ub
      exact ⟨hr, (hl idx.val).trans (by rw [← hy]; exact y.le_ub), le_trans y.lb_le (hy ▸ hu idx.val)⟩
    refine ⟨h, ?_⟩
    generalize hd : restrict idx _ h = d
    have hv : d.val = idx.val := by rw [← hd]; rfl
    rw [← hv] at hy
    have b1 := (Finset.inf'_le (fun i => (xs i).lb) d.mem).trans (hl d.val)
    have b2 := (hu d.val).trans (Finset.le_sup' (fun i => (xs i).ub) d.mem)
    by_cases a : d.dom.inf' d.dom_ne (fun i => (xs i).lb) = d.dom.sup' d.dom_ne (fun i => (xs i).ub)
    · rw [if_pos a, hy]; exact fixed_all hl hu a d.mem
    · rw [if_neg a]
      refine ⟨hy ▸ b1, hy ▸ b2, ?_⟩
      by_cases c : {0, 1} = d.dom
      · rw [if_pos c]
        obtain ⟨e1, e2, e3⟩ := dom01 c
        rw [auxFloatEqIf1_iff o _ _ _ (sub_isB c).1, V.sub_val, V.const_val,
          auxFloatEqIf1_iff o _ _ _ (sub_isB c).2, V.addC_val]
        constructor
        · intro e4
          rw [hy, show d.val = d.lb by omega]
        · intro e4
          rw [hy, show d.val = d.ub by omega]
      · rw [if_neg c]
        obtain ⟨p, hp⟩ := exists_eqEncode o d
        have hp1 : p d.val = 1 := by rw [enc_at o hp d.mem, if_pos rfl]
        have hp0 : ∀ i ∈ d.dom, i ≠ d.val → p i = 0 := fun i hi hne => by rw [enc_at o hp hi, if_neg hne]
        refine ⟨p, hp, fun i hi => ?_, ?_⟩
        · rw [auxFloatEqIf1_iff o _ _ _ (flagOf_isB _), flagOf_one, enc_at o hp hi]
          intro h'
          have : i = d.val := by by_contra hc; simp [hc] at h'
          rw [this, hy]
        · split_ifs
          · rw [hy]
            exact ⟨xbzLb_valid cutgen _ xs p d.val d.mem hp1 hp0,
              xbzLb_valid cutgen _ (fun i => (xs i).neg) p d.val d.mem hp1 hp0⟩

end MZ.LinArith
