import Verif.Dbl.Model
import Verif.IntVal.Props
import Mathlib.Tactic.Positivity
import Mathlib.Tactic.FieldSimp
/-!
# Lemmas about rounding to binary64
-/
namespace MZ
namespace Dbl

theorem rne_int (z : ℤ) : rne z = z := by
  unfold rne; simp

theorem rne_err (q : ℚ) : |(rne q : ℚ) - q| ≤ 1 / 2 := by
  have h1 : (⌊q⌋ : ℚ) ≤ q := Int.floor_le q
  have h2 : q < ⌊q⌋ + 1 := Int.lt_floor_add_one q
  unfold rne
  split_ifs <;> rw [abs_le] <;> push_cast <;> constructor <;> linarith

theorem ulp_pos (q : ℚ) : 0 < ulp q := by unfold ulp; exact zpow_pos (by norm_num) _

theorem ulp_le (q : ℚ) (hq : q ≠ 0) : ulp q * 2 ^ 52 ≤ |q| := by
  have h := Int.zpow_log_le_self (b := 2) (r := |q|) (by norm_num) (abs_pos.2 hq)
  unfold ulp
  rw [zpow_sub₀ (by norm_num)]
  push_cast at h
  have : (2:ℚ) ^ Int.log 2 |q| / 2 ^ (52:ℤ) * 2 ^ 52 = 2 ^ Int.log 2 |q| := by
    rw [show ((2:ℚ) ^ (52:ℤ)) = 2 ^ 52 by norm_cast]
    field_simp
  rw [this]; exact h

theorem rnd_err (q : ℚ) : |rnd q - q| * 2 ^ 53 ≤ |q| := by
  unfold rnd
  split_ifs with h
  · subst h; simp
  · have hu := ulp_pos q
    have h1 := rne_err (q / ulp q)
    have h2 : (rne (q / ulp q) : ℚ) * ulp q - q = (rne (q / ulp q) - q / ulp q) * ulp q := by
      field_simp
    rw [h2, abs_mul, abs_of_pos hu]
    have h3 := ulp_le q h
    have h4 : |(rne (q / ulp q) : ℚ) - q / ulp q| * ulp q ≤ 1 / 2 * ulp q :=
      mul_le_mul_of_nonneg_right h1 hu.le
    calc _ ≤ 1 / 2 * ulp q * 2 ^ 53 := mul_le_mul_of_nonneg_right h4 (by positivity)
      _ = ulp q * 2 ^ 52 := by ring
      _ ≤ _ := h3

theorem rnd_int (z : ℤ) (hz : |z| < 2 ^ 53) : rnd z = z := by
  unfold rnd
  split_ifs with h
  · rw [h]
  · have hz0 : z ≠ 0 := by exact_mod_cast h
    have hpos : (0:ℚ) < |(z:ℚ)| := abs_pos.2 h
    have hlog : Int.log 2 |(z:ℚ)| ≤ 52 := by
      have h1 : |(z:ℚ)| < ((2:ℕ):ℚ) ^ (53:ℤ) := by
        rw [← Int.cast_abs, show ((2:ℕ):ℚ) ^ (53:ℤ) = ((2 ^ 53 : ℤ) : ℚ) by norm_num]
        exact_mod_cast hz
      have := (Int.lt_zpow_iff_log_lt (b := 2) (by norm_num) hpos).1 h1
      omega
    obtain ⟨k, hk⟩ : ∃ k : ℕ, Int.log 2 |(z:ℚ)| - 52 = -(k:ℤ) :=
      ⟨(52 - Int.log 2 |(z:ℚ)|).toNat, by omega⟩
    have hu : ulp (z:ℚ) = (1 / 2 ^ k : ℚ) := by
      unfold ulp; rw [hk, zpow_neg]; simp
    rw [hu]
    have : (z:ℚ) / (1 / 2 ^ k) = ((z * 2 ^ k : ℤ) : ℚ) := by push_cast; field_simp
    rw [this, rne_int]
    push_cast; field_simp

/-- For operands below 2^53 the rounded quotient stays strictly between the neighbouring
integers of the exact quotient. -/
theorem div_err (a b : ℤ) (ha : |a| < 2 ^ 53) (hb : b ≠ 0) :
    |rnd ((a:ℚ) / b) - a / b| * |(b:ℚ)| < 1 := by
  have h := rnd_err ((a:ℚ) / b)
  have hb' : (0:ℚ) < |(b:ℚ)| := abs_pos.2 (by exact_mod_cast hb)
  rw [abs_div] at h
  have ha' : |(a:ℚ)| < 2 ^ 53 := by
    rw [← Int.cast_abs, show (2:ℚ) ^ 53 = ((2 ^ 53 : ℤ) : ℚ) by norm_num]
    exact_mod_cast ha
  rw [le_div_iff₀ hb'] at h
  nlinarith [abs_nonneg (rnd ((a:ℚ) / b) - a / b)]

theorem floor_rnd (a b : ℤ) (ha : |a| < 2 ^ 53) (hb : b ≠ 0) :
    ⌊rnd ((a:ℚ) / b)⌋ = ⌊(a:ℚ) / b⌋ := by
  have he := div_err a b ha hb
  have hb0 : (b:ℚ) ≠ 0 := by exact_mod_cast hb
  have hb' : (0:ℚ) < |(b:ℚ)| := abs_pos.2 hb0
  set n := ⌊(a:ℚ) / b⌋ with hn
  have h1 : (n:ℚ) ≤ a / b := Int.floor_le _
  have h2 : (a:ℚ) / b < n + 1 := Int.lt_floor_add_one _
  by_cases heq : (a:ℚ) / b = n
  · have hn53 : |n| < 2 ^ 53 := by
      have h3 : a = n * b := by
        have : (a:ℚ) = n * b := by rw [← heq]; field_simp
        exact_mod_cast this
      have h4 : 1 ≤ |b| := Int.one_le_abs hb
      rw [h3, abs_mul] at ha
      nlinarith [abs_nonneg n]
    rw [heq, rnd_int n hn53]; simp
  · have h1' : (n:ℚ) < a / b := lt_of_le_of_ne h1 (Ne.symm heq)
    -- both gaps are at least 1/|b|
    have gap : ∀ m : ℤ, (m:ℚ) ≠ a / b → 1 ≤ |(a:ℚ) / b - m| * |(b:ℚ)| := by
      intro m hm
      rw [← abs_mul]
      have : ((a:ℚ) / b - m) * b = ((a - m * b : ℤ) : ℚ) := by push_cast; field_simp
      rw [this]
      have hne : a - m * b ≠ 0 := by
        intro h0
        apply hm
        have : (a:ℚ) = m * b := by exact_mod_cast (by omega : a = m * b)
        rw [this]; field_simp
      exact_mod_cast Int.one_le_abs hne
    have g1 := gap n (ne_of_lt h1')
    have g2 := gap (n + 1) (by push_cast; exact ne_of_gt h2)
    rw [abs_of_pos (by linarith)] at g1
    rw [abs_of_neg (by push_cast; linarith)] at g2
    push_cast at g2
    rw [Int.floor_eq_iff]
    have hle := abs_le.1 (le_refl |rnd ((a:ℚ) / b) - a / b|)
    constructor
    · by_contra hc
      push Not at hc
      have : (a:ℚ) / b - n < |rnd ((a:ℚ) / b) - a / b| := by
        have := neg_abs_le (rnd ((a:ℚ) / b) - a / b); linarith
      nlinarith
    · by_contra hc
      push Not at hc
      have : n + 1 - (a:ℚ) / b ≤ |rnd ((a:ℚ) / b) - a / b| := by
        have := le_abs_self (rnd ((a:ℚ) / b) - a / b); linarith
      nlinarith

theorem rne_neg (q : ℚ) : rne (-q) = -rne q := by
  by_cases hq : (⌊q⌋ : ℚ) = q
  · rw [← hq, ← Int.cast_neg, rne_int, rne_int]
  have hf : ⌊-q⌋ = -⌊q⌋ - 1 := by
    rw [Int.floor_eq_iff]; push_cast
    have h1 : (⌊q⌋ : ℚ) ≤ q := Int.floor_le q
    have h2 : q < ⌊q⌋ + 1 := Int.lt_floor_add_one q
    constructor
    · linarith
    · have := lt_of_le_of_ne h1 hq; linarith
  unfold rne
  rw [hf]; push_cast
  split_ifs <;> first | omega | (exfalso; linarith)

theorem rnd_neg (q : ℚ) : rnd (-q) = -rnd q := by
  unfold rnd
  by_cases h : q = 0
  · simp [h]
  · have hu : ulp (-q) = ulp q := by unfold ulp; rw [abs_neg]
    rw [if_neg h, if_neg (by simpa using h), hu, neg_div, rne_neg]; push_cast; ring

theorem ceil_rnd (a b : ℤ) (ha : |a| < 2 ^ 53) (hb : b ≠ 0) :
    ⌈rnd ((a:ℚ) / b)⌉ = ⌈(a:ℚ) / b⌉ := by
  have h := floor_rnd (-a) b (by rwa [abs_neg]) hb
  push_cast at h
  rw [neg_div, rnd_neg, Int.floor_neg, Int.floor_neg] at h
  omega

end Dbl
end MZ
