import Verif.Mip.Model
import Mathlib.Tactic.FieldSimp
import Mathlib.Tactic.Positivity

/-! # Rounding, and the images of ranges under `x ↦ A x + B` -/

namespace MZ.Mip

/-- The number is a multiple of `1 / q` for some `q` below 100000: what makes the rounding with `INT_EPS` exact. -/
def OnGrid (x : ℚ) : Prop := ∃ q : ℤ, 0 < q ∧ q < 100000 ∧ ∃ m : ℤ, x * q = m

/-- Both coefficients are multiples of one `1 / q`. -/
def Grid (A B : ℚ) : Prop := ∃ q : ℤ, 0 < q ∧ q < 100000 ∧ (∃ a : ℤ, A * q = a) ∧ ∃ b : ℤ, B * q = b

theorem Grid.on {A B : ℚ} (h : Grid A B) (v : ℤ) : OnGrid (A * v + B) := by
  obtain ⟨q, h1, h2, ⟨a, ha⟩, b, hb⟩ := h
  exact ⟨q, h1, h2, a * v + b, by push_cast; rw [← ha, ← hb]; ring⟩

theorem Grid.abs {A B : ℚ} (h : Grid A B) (k : ℤ) (s : ℚ) (hs : s = 1 ∨ s = -1) : OnGrid (k + s * max 1 |A|) := by
  obtain ⟨q, h1, h2, ⟨a, ha⟩, b, hb⟩ := h
  have hq : OnGrid ((k : ℚ) + 1) ∧ OnGrid ((k : ℚ) - 1) := by
    exact ⟨⟨1, by norm_num, by norm_num, k + 1, by push_cast; ring⟩, ⟨1, by norm_num, by norm_num, k - 1, by push_cast; ring⟩⟩
  rcases le_total (|A|) 1 with h' | h'
  · rw [max_eq_left h']
    rcases hs with rfl | rfl
    · simpa using hq.1
    · have := hq.2; rwa [sub_eq_add_neg, ← mul_one (-1 : ℚ)] at this
  · rw [max_eq_right h']
    refine ⟨q, h1, h2, ?_⟩
    rcases hs with rfl | rfl <;> rcases abs_choice A with h3 | h3 <;> rw [h3]
    · exact ⟨k * q + a, by push_cast; rw [← ha]; ring⟩
    · exact ⟨k * q - a, by push_cast; rw [← ha]; ring⟩
    · exact ⟨k * q - a, by push_cast; rw [← ha]; ring⟩
    · exact ⟨k * q + a, by push_cast; rw [← ha]; ring⟩

theorem onGrid_int (k : ℤ) : OnGrid (k : ℚ) := ⟨1, by norm_num, by norm_num, k, by simp⟩

/-- A number on the grid above an integer is above it by more than `eps`. -/
theorem OnGrid.gap {x : ℚ} (h : OnGrid x) (k : ℤ) (hk : (k : ℚ) < x) : k + eps < x := by
  obtain ⟨q, h1, h2, m, hm⟩ := h
  have hq : (0 : ℚ) < q := by exact_mod_cast h1
  have hq2 : (q : ℚ) < 100000 := by exact_mod_cast h2
  have h3 : (k : ℚ) * q < x * q := mul_lt_mul_of_pos_right hk hq
  rw [hm] at h3
  have h4 : k * q + 1 ≤ m := by
    have : k * q < m := by exact_mod_cast h3
    omega
  have h5 : (k : ℚ) * q + 1 ≤ x * q := by rw [hm]; exact_mod_cast h4
  unfold eps
  by_contra hc
  have hc := not_lt.mp hc
  nlinarith

theorem OnGrid.neg {x : ℚ} (h : OnGrid x) : OnGrid (-x) := by
  obtain ⟨q, h1, h2, m, hm⟩ := h
  exact ⟨q, h1, h2, -m, by push_cast; rw [← hm]; ring⟩

theorem OnGrid.gap' {x : ℚ} (h : OnGrid x) (k : ℤ) (hk : x < k) : x + eps < k := by
  have := h.neg.gap (-k) (by push_cast; linarith)
  push_cast at this
  linarith

theorem eps_pos : 0 < eps := by unfold eps; norm_num
theorem eps_lt : eps < 1 / 2 := by unfold eps; norm_num

theorem rndUp_eq {x : ℚ} (h : OnGrid x) : rndUp x = ⌈x⌉ := by
  unfold rndUp
  rw [Int.ceil_eq_iff]
  have h1 := Int.le_ceil x
  have h2 := Int.ceil_lt_add_one x
  have := h.gap (⌈x⌉ - 1) (by push_cast; linarith)
  push_cast at this
  have := eps_pos
  constructor <;> linarith

theorem rndDown_eq {x : ℚ} (h : OnGrid x) : rndDown x = ⌊x⌋ := by
  unfold rndDown
  rw [Int.floor_eq_iff]
  have h1 := Int.floor_le x
  have h2 := Int.lt_floor_add_one x
  have := h.gap' (⌊x⌋ + 1) (by push_cast; linarith)
  push_cast at this
  have := eps_pos
  constructor <;> linarith

theorem stdRound_between (x : ℚ) : ⌊x⌋ ≤ stdRound x ∧ stdRound x ≤ ⌈x⌉ := by
  unfold stdRound
  split
  · constructor
    · exact Int.floor_le_floor (by linarith)
    · have : ⌊x + 1 / 2⌋ < ⌈x⌉ + 1 := by
        rw [Int.floor_lt]; push_cast; have := Int.le_ceil x; linarith
      omega
  · constructor
    · have : ⌊x⌋ - 1 < ⌈x - 1 / 2⌉ := by
        rw [Int.lt_ceil]; push_cast; have := Int.floor_le x; linarith
      omega
    · exact Int.ceil_le_ceil (by linarith)

theorem stdRound_int (k : ℤ) : stdRound (k : ℚ) = k := by
  have := stdRound_between (k : ℚ)
  simp only [Int.floor_intCast, Int.ceil_intCast] at this
  omega

theorem stdRound_near {x : ℚ} (h : OnGrid x) : |x - stdRound x| ≤ eps ↔ x = stdRound x := by
  constructor
  · intro h'
    by_contra hc
    rcases lt_or_gt_of_ne hc with hlt | hgt
    · have := h.gap' _ hlt
      rw [abs_of_neg (by linarith)] at h'
      linarith
    · have := h.gap _ hgt
      rw [abs_of_pos (by linarith)] at h'
      linarith
  · intro h'
    have : x - stdRound x = 0 := by linarith
    rw [this, abs_zero]
    exact eps_pos.le

theorem stdRound_near' {x : ℚ} (h : OnGrid x) : |x - stdRound x| < eps ↔ x = stdRound x := by
  constructor
  · intro h'; exact (stdRound_near h).mp h'.le
  · intro h'
    have : x - stdRound x = 0 := by linarith
    rw [this, abs_zero]
    exact eps_pos

theorem trunc_between (x : ℚ) : ⌊x⌋ ≤ trunc x ∧ trunc x ≤ ⌈x⌉ := by
  unfold trunc
  split
  · exact ⟨le_rfl, Int.floor_le_ceil x⟩
  · exact ⟨Int.floor_le_ceil x, le_rfl⟩

theorem trunc_neg (x : ℚ) : trunc (-x) = - trunc x := by
  unfold trunc
  rcases lt_trichotomy x 0 with h | rfl | h
  · rw [if_pos (by linarith), if_neg (by linarith), Int.floor_neg]
  · simp
  · rw [if_neg (by linarith), if_pos h.le, Int.ceil_neg]

theorem trunc_int (k : ℤ) : trunc (k : ℚ) = k := by unfold trunc; split <;> simp

theorem trunc_small {x : ℚ} (h : |x| ≤ 1 / 100000000) : trunc x = 0 := by
  rw [abs_le] at h
  unfold trunc
  split
  · rw [Int.floor_eq_iff]; push_cast; constructor <;> linarith
  · rw [Int.ceil_eq_iff]; push_cast; constructor <;> linarith

theorem trunc_mono {x y : ℚ} (h : x ≤ y) : trunc x ≤ trunc y := by
  unfold trunc
  by_cases hx : 0 ≤ x
  · rw [if_pos hx, if_pos (hx.trans h)]; exact Int.floor_le_floor h
  · by_cases hy : 0 ≤ y
    · rw [if_neg hx, if_pos hy]
      have a : ⌈x⌉ ≤ 0 := Int.ceil_le.mpr (by push_cast; linarith)
      have b : 0 ≤ ⌊y⌋ := Int.floor_nonneg.mpr hy
      omega
    · rw [if_neg hx, if_neg hy]; exact Int.ceil_le_ceil h

/-! ## Ends of intervals and the value `r` of the reference variable -/

/-- A left end is on the grid, and if it is not an integer, the integer below it is not `r`. -/
def LOk (r : ℤ) (x : E) : Prop := ∀ t, x = fin t → OnGrid t ∧ ((∃ k : ℤ, t = k) ∨ ⌊t⌋ ≠ r)

/-- A right end is on the grid, and if it is not an integer, the integer above it is not `r`. -/
def ROk (r : ℤ) (x : E) : Prop := ∀ t, x = fin t → OnGrid t ∧ ((∃ k : ℤ, t = k) ∨ ⌈t⌉ ≠ r)

theorem LOk_bot (r : ℤ) : LOk r ⊥ := fun t h => absurd h.symm (fin_ne_bot t)
theorem LOk_top (r : ℤ) : LOk r ⊤ := fun t h => absurd h.symm (fin_ne_top t)
theorem ROk_bot (r : ℤ) : ROk r ⊥ := fun t h => absurd h.symm (fin_ne_bot t)
theorem ROk_top (r : ℤ) : ROk r ⊤ := fun t h => absurd h.symm (fin_ne_top t)
theorem LOk_int (r k : ℤ) : LOk r (fin k) := fun t h => by
  rw [fin_inj] at h; subst h; exact ⟨onGrid_int k, .inl ⟨k, rfl⟩⟩
theorem ROk_int (r k : ℤ) : ROk r (fin k) := fun t h => by
  rw [fin_inj] at h; subst h; exact ⟨onGrid_int k, .inl ⟨k, rfl⟩⟩

/-- An integer next to a left end compares with `r` as the end does. -/
theorem LOk.le_iff {r : ℤ} {t : ℚ} (h : LOk r (fin t)) {k : ℤ} (hk : ⌊t⌋ ≤ k ∧ k ≤ ⌈t⌉) : k ≤ r ↔ t ≤ r := by
  obtain ⟨-, ⟨m, rfl⟩ | h⟩ := h t rfl
  · simp only [Int.floor_intCast, Int.ceil_intCast] at hk
    have : k = m := by omega
    rw [this]; norm_cast
  · constructor
    · intro hr
      have h1 : ⌊t⌋ + 1 ≤ r := by omega
      have h2 := Int.lt_floor_add_one t
      have h3 : ((⌊t⌋ : ℚ) + 1) ≤ r := by exact_mod_cast h1
      linarith
    · intro hr
      have := Int.ceil_le.mpr hr
      omega

/-- An integer next to a right end compares with `r` as the end does. -/
theorem ROk.le_iff {r : ℤ} {t : ℚ} (h : ROk r (fin t)) {k : ℤ} (hk : ⌊t⌋ ≤ k ∧ k ≤ ⌈t⌉) : r ≤ k ↔ (r : ℚ) ≤ t := by
  obtain ⟨-, ⟨m, rfl⟩ | h⟩ := h t rfl
  · simp only [Int.floor_intCast, Int.ceil_intCast] at hk
    have : k = m := by omega
    rw [this]; norm_cast
  · constructor
    · intro hr
      have h1 : r + 1 ≤ ⌈t⌉ := by omega
      have h2 := Int.ceil_lt_add_one t
      have h3 : ((r : ℚ) + 1) ≤ ⌈t⌉ := by exact_mod_cast h1
      linarith
    · intro hr
      have := Int.le_floor.mpr hr
      omega

/-! ## The image of a range -/

/-- The value of the reference variable and of the variable of the view; the view is usable. -/
structure At (A B : ℚ) (r v : ℤ) : Prop where
  hA : A ≠ 0
  grid : Grid A B
  eq : (r : ℚ) = A * v + B

theorem convRange_pos {A B : ℚ} (h : 0 < A) (r : IRange) : convRange A B r =
    ⟨match r.lo with | some a => fin (rndUp (a * A + B)) | none => ⊥,
     match r.hi with | some b => fin (rndDown (b * A + B)) | none => ⊤⟩ := by
  unfold convRange; rw [if_neg (not_lt.mpr h.le)]; rfl

theorem convRange_neg {A B : ℚ} (h : A < 0) (r : IRange) : convRange A B r =
    ⟨match r.hi with | some a => fin (rndUp (a * A + B)) | none => ⊥,
     match r.lo with | some b => fin (rndDown (b * A + B)) | none => ⊤⟩ := by
  unfold convRange; rw [if_pos h]; rfl

theorem Grid.on' {A B : ℚ} (h : Grid A B) (v : ℤ) : OnGrid (v * A + B) := by rw [mul_comm]; exact h.on v

theorem convRange_ends {A B : ℚ} (r : IRange) :
    (convRange A B r).left ≠ ⊤ ∧ (convRange A B r).right ≠ ⊥ ∧ (∀ t, (convRange A B r).left = fin t → ∃ k : ℤ, t = k) ∧
      ∀ t, (convRange A B r).right = fin t → ∃ k : ℤ, t = k := by
  have key : ∀ o : Option Int, (match o with | some a => fin (rndUp (a * A + B)) | none => (⊥ : E)) ≠ ⊤ ∧
      ∀ t, (match o with | some a => fin (rndUp (a * A + B)) | none => (⊥ : E)) = fin t → ∃ k : ℤ, t = k := by
    intro o
    cases o with
    | none => exact ⟨bot_ne_top, fun t h => absurd h.symm (fin_ne_bot t)⟩
    | some a => exact ⟨fin_ne_top _, fun t h => ⟨_, (fin_inj.mp h).symm⟩⟩
  have key' : ∀ o : Option Int, (match o with | some a => fin (rndDown (a * A + B)) | none => (⊤ : E)) ≠ ⊥ ∧
      ∀ t, (match o with | some a => fin (rndDown (a * A + B)) | none => (⊤ : E)) = fin t → ∃ k : ℤ, t = k := by
    intro o
    cases o with
    | none => exact ⟨top_ne_bot, fun t h => absurd h.symm (fin_ne_top t)⟩
    | some a => exact ⟨fin_ne_bot _, fun t h => ⟨_, (fin_inj.mp h).symm⟩⟩
  unfold convRange
  dsimp only
  exact ⟨(key _).1, (key' _).1, (key _).2, (key' _).2⟩

/-- The left end of an image compares with `r` as the number it comes from. -/
theorem up_le {A B : ℚ} {r v : ℤ} (h : At A B r v) (a : ℤ) : fin (rndUp (a * A + B)) ≤ fin (r : ℚ) ↔ A * a ≤ A * v := by
  rw [fin_le, rndUp_eq (h.grid.on' a), Int.cast_le, Int.ceil_le, h.eq, mul_comm]
  constructor <;> intro h <;> linarith

theorem le_down {A B : ℚ} {r v : ℤ} (h : At A B r v) (b : ℤ) : fin (r : ℚ) ≤ fin (rndDown (b * A + B)) ↔ A * v ≤ A * b := by
  rw [fin_le, rndDown_eq (h.grid.on' b), Int.cast_le, Int.le_floor, h.eq, mul_comm (b : ℚ)]
  constructor <;> intro h <;> linarith

/-- `r` is in the image exactly if the value of the variable is in the range. -/
theorem convRange_has {A B : ℚ} {r v : ℤ} (h : At A B r v) (g : IRange) : (convRange A B g).has r ↔ g.has v := by
  rcases lt_or_gt_of_ne h.hA with hA | hA
  · rw [convRange_neg hA]
    unfold Intv.has IRange.has
    rw [and_comm]
    refine and_congr ?_ ?_
    · cases g.lo with
      | none => simp
      | some a =>
        dsimp only
        rw [le_down h, mul_le_mul_left_of_neg hA]; simp
    · cases g.hi with
      | none => simp
      | some a =>
        dsimp only
        rw [up_le h, mul_le_mul_left_of_neg hA]; simp
  · rw [convRange_pos hA]
    unfold Intv.has IRange.has
    refine and_congr ?_ ?_
    · cases g.lo with
      | none => simp
      | some a =>
        dsimp only
        rw [up_le h, mul_le_mul_iff_right₀ hA]; simp
    · cases g.hi with
      | none => simp
      | some a =>
        dsimp only
        rw [le_down h, mul_le_mul_iff_right₀ hA]; simp

theorem above_down {A B : ℚ} {r v : ℤ} (h : At A B r v) (b : ℤ) (hr : fin (rndDown (b * A + B)) < fin (r : ℚ)) :
    fin ((rndDown (b * A + B) : ℚ) + max 1 |A|) ≤ fin (r : ℚ) := by
  have h1 : ¬ (A * v ≤ A * b) := fun h' => absurd ((le_down h b).mpr h') (not_le.mpr hr)
  rw [fin_lt] at hr
  rw [fin_le]
  have hi : (rndDown (b * A + B) : ℚ) + 1 ≤ r := by
    have : rndDown (b * A + B) < r := by exact_mod_cast hr
    exact_mod_cast this
  have h2 : A * b + |A| ≤ A * v := by
    rcases lt_or_gt_of_ne h.hA with hA | hA
    · rw [abs_of_neg hA]
      have : v + 1 ≤ b := by
        by_contra hc
        exact h1 ((mul_le_mul_left_of_neg hA).mpr (by exact_mod_cast (by omega : b ≤ v)))
      have : (v : ℚ) + 1 ≤ b := by exact_mod_cast this
      nlinarith
    · rw [abs_of_pos hA]
      have : b + 1 ≤ v := by
        by_contra hc
        exact h1 ((mul_le_mul_iff_right₀ hA).mpr (by exact_mod_cast (by omega : v ≤ b)))
      have : (b : ℚ) + 1 ≤ v := by exact_mod_cast this
      nlinarith
  have h3 : (rndDown (b * A + B) : ℚ) ≤ b * A + B := by rw [rndDown_eq (h.grid.on' b)]; exact Int.floor_le _
  rcases max_choice (1 : ℚ) |A| with h' | h' <;> rw [h']
  · exact hi
  · rw [h.eq]; linarith

theorem below_up {A B : ℚ} {r v : ℤ} (h : At A B r v) (b : ℤ) (hr : fin (r : ℚ) < fin (rndUp (b * A + B))) :
    fin (r : ℚ) ≤ fin ((rndUp (b * A + B) : ℚ) - max 1 |A|) := by
  have h1 : ¬ (A * b ≤ A * v) := fun h' => absurd ((up_le h b).mpr h') (not_le.mpr hr)
  rw [fin_lt] at hr
  rw [fin_le]
  have hi : (r : ℚ) + 1 ≤ rndUp (b * A + B) := by
    have : r < rndUp (b * A + B) := by exact_mod_cast hr
    exact_mod_cast this
  have h2 : A * v + |A| ≤ A * b := by
    rcases lt_or_gt_of_ne h.hA with hA | hA
    · rw [abs_of_neg hA]
      have : b + 1 ≤ v := by
        by_contra hc
        exact h1 ((mul_le_mul_left_of_neg hA).mpr (by exact_mod_cast (by omega : v ≤ b)))
      have : (b : ℚ) + 1 ≤ v := by exact_mod_cast this
      nlinarith
    · rw [abs_of_pos hA]
      have : v + 1 ≤ b := by
        by_contra hc
        exact h1 ((mul_le_mul_iff_right₀ hA).mpr (by exact_mod_cast (by omega : b ≤ v)))
      have : (v : ℚ) + 1 ≤ b := by exact_mod_cast this
      nlinarith
  have h3 : b * A + B ≤ (rndUp (b * A + B) : ℚ) := by rw [rndUp_eq (h.grid.on' b)]; exact Int.le_ceil _
  rcases max_choice (1 : ℚ) |A| with h' | h' <;> rw [h']
  · linarith
  · rw [h.eq]; linarith

/-- No value is in the open intervals next to the image of a range. -/
theorem convRange_near {A B : ℚ} {r v : ℤ} (h : At A B r v) (g : IRange) : ¬ Near (max 1 |A|) (convRange A B g) r := by
  have kl : ∀ o : Option Int, ∀ x : E, x = (match o with | some a => fin (rndUp (a * A + B)) | none => (⊥ : E)) →
      ¬ (x ≠ ⊥ ∧ shift (-(max 1 |A|)) x < fin (r : ℚ) ∧ fin (r : ℚ) < x) := by
    intro o x hx hc
    cases o with
    | none => exact hc.1 hx
    | some a =>
      dsimp only at hx
      subst hx
      rw [shift_fin, ← sub_eq_add_neg] at hc
      exact absurd (below_up h a hc.2.2) (not_le.mpr hc.2.1)
  have kr : ∀ o : Option Int, ∀ x : E, x = (match o with | some a => fin (rndDown (a * A + B)) | none => (⊤ : E)) →
      ¬ (x ≠ ⊤ ∧ x < fin (r : ℚ) ∧ fin (r : ℚ) < shift (max 1 |A|) x) := by
    intro o x hx hc
    cases o with
    | none => exact hc.1 hx
    | some a =>
      dsimp only at hx
      subst hx
      rw [shift_fin] at hc
      exact absurd (above_down h a hc.2.1) (not_le.mpr hc.2.2)
  rintro (hc | hc)
  · exact kl (if A < 0 then (g.hi, g.lo) else (g.lo, g.hi)).1 _ rfl hc
  · exact kr (if A < 0 then (g.hi, g.lo) else (g.lo, g.hi)).2 _ rfl hc

/-- The ends that cutting around an image makes. -/
theorem LOk_step {A B : ℚ} {r v : ℤ} (h : At A B r v) (k : ℤ)
    (hn : ¬ ((k : ℚ) < r ∧ (r : ℚ) < k + max 1 |A|)) : LOk r (fin (k + max 1 |A|)) := by
  intro t ht
  rw [fin_inj] at ht
  subst ht
  refine ⟨by simpa using h.grid.abs k 1 (.inl rfl), ?_⟩
  by_cases hf : ⌊(k : ℚ) + max 1 |A|⌋ = r
  · left
    have h1 := Int.floor_le ((k : ℚ) + max 1 |A|)
    have h2 := Int.lt_floor_add_one ((k : ℚ) + max 1 |A|)
    rw [hf] at h1 h2
    rcases h1.lt_or_eq with h3 | h3
    · exact absurd ⟨by have := le_max_left (1 : ℚ) |A|; linarith, h3⟩ hn
    · exact ⟨r, h3.symm⟩
  · exact .inr hf

theorem ROk_step {A B : ℚ} {r v : ℤ} (h : At A B r v) (k : ℤ)
    (hn : ¬ ((k : ℚ) - max 1 |A| < r ∧ (r : ℚ) < k)) : ROk r (fin (k - max 1 |A|)) := by
  intro t ht
  rw [fin_inj] at ht
  subst ht
  refine ⟨by have := h.grid.abs k (-1) (.inr rfl); rwa [neg_one_mul, ← sub_eq_add_neg] at this, ?_⟩
  by_cases hf : ⌈(k : ℚ) - max 1 |A|⌉ = r
  · left
    have h1 := Int.le_ceil ((k : ℚ) - max 1 |A|)
    have h2 := Int.ceil_lt_add_one ((k : ℚ) - max 1 |A|)
    rw [hf] at h1 h2
    rcases h1.lt_or_eq with h3 | h3
    · exact absurd ⟨h3, by have := le_max_left (1 : ℚ) |A|; linarith⟩ hn
    · exact ⟨r, h3⟩
  · exact .inr hf

end MZ.Mip
