import Verif.Linear.Lemmas
/-!
# `simplify_lin` raises no error when magnitudes are small
-/
namespace MZ
namespace Linear
open Finset

/-- Magnitude an operand contributes: a literal its absolute value (at least 1), others 1. -/
def weight : Atom → Int
  | .lit v => max 1 |v|
  | _ => 1

theorem weight_pos (a : Atom) : 1 ≤ weight a := by cases a <;> simp [weight]

/-- Bound on everything `simplify_lin` computes. -/
def B (n : Nat) (x : Nat → Atom) (c : Nat → Int) (d : Int) : Int :=
  |d| + T n (fun i => weight (x i)) (fun i => |c i|)

theorem abs_upd (c : Nat → Int) (i : Nat) (a : Int) :
    (fun j => |upd c i a j|) = upd (fun j => |c j|) i |a| := by
  funext j; simp only [upd]; split <;> rfl

theorem term_le (n : Nat) (x : Nat → Atom) (c : Nat → Int) (i : Nat) (hi : i < n) :
    |c i| * weight (x i) ≤ T n (fun i => weight (x i)) (fun i => |c i|) := by
  unfold T
  exact Finset.single_le_sum (f := fun i => |c i| * weight (x i))
    (fun j _ => mul_nonneg (abs_nonneg _) (by have := weight_pos (x j); omega)) (by simpa using hi)

theorem T_nonneg (n : Nat) (x : Nat → Atom) (c : Nat → Int) :
    0 ≤ T n (fun i => weight (x i)) (fun i => |c i|) :=
  Finset.sum_nonneg (fun j _ => mul_nonneg (abs_nonneg _)
    (by have := weight_pos (x j); show 0 ≤ weight (x j); omega))

theorem inLL_of_abs {a : Int} (h : |a| ≤ LMAX) : inLL a := by
  rw [abs_le] at h; rw [inLL_iff]; unfold LMAX at h; omega

theorem ne_lmin_of_abs {a : Int} (h : |a| ≤ LMAX) : a ≠ LMIN := by
  rw [abs_le] at h; unfold LMAX LMIN at *; omega

theorem safePlus_total {a b : Int} (ha : |a| ≤ LMAX) (hb : |b| ≤ LMAX) (h : |a + b| ≤ LMAX) :
    safePlus a b = .ok (a + b) := by
  rw [safePlus_eq (inLL_of_abs ha) (inLL_of_abs hb), if_pos (inLL_of_abs h)]

theorem safeMult_total {a b : Int} (ha : |a| ≤ LMAX) (hb : |b| ≤ LMAX) (h : |a * b| ≤ LMAX) :
    safeMult a b = .ok (a * b) := by
  rw [safeMult_eq (inLL_of_abs ha) (inLL_of_abs hb)]
  by_cases hb0 : b = 0
  · subst hb0; simp
  · rw [if_neg hb0, if_neg (by rintro (h1 | h1); exacts [ne_lmin_of_abs ha h1, ne_lmin_of_abs hb h1]),
      if_pos (by rw [abs_le] at h; exact h)]

/-- One literal folded: no error, and the bound does not grow. -/
theorem fold_step (n : Nat) (x : Nat → Atom) (c : Nat → Int) (d v : Int) (i : Nat) (hi : i < n)
    (hx : x i = .lit v) (hv : |v| ≤ LMAX) (hB : B n x c d ≤ LMAX) :
    ∃ d', addMul d (c i) v = .ok d' ∧ B n x (upd c i 0) d' ≤ LMAX := by
  have ht := term_le n x c i hi
  have h0 := T_nonneg n x c
  have hd0 := abs_nonneg d
  unfold B at hB
  rw [hx, show weight (.lit v) = max 1 |v| from rfl] at ht
  have hw1 : |v| ≤ max 1 |v| := le_max_right _ _
  have hw2 : 1 ≤ max 1 |v| := le_max_left _ _
  have hc0 := abs_nonneg (c i)
  have hcv : |c i * v| ≤ |c i| * max 1 |v| := by
    rw [abs_mul]; exact mul_le_mul_of_nonneg_left hw1 hc0
  have hc : |c i| ≤ |c i| * max 1 |v| := by nlinarith
  have hsum : |d + c i * v| ≤ |d| + |c i * v| := abs_add_le _ _
  refine ⟨d + c i * v, ?_, ?_⟩
  · unfold addMul
    rw [safeMult_total (by omega) hv (by omega), Res.ok_bind,
      safePlus_total (by omega) (by omega) (by omega)]
  · unfold B
    rw [abs_upd, T_upd _ _ _ _ _ hi]
    simp only [hx, abs_zero]
    rw [show weight (.lit v) = max 1 |v| from rfl]
    nlinarith

theorem foldLits_total (n : Nat) (x : Nat → Atom) (hl : ∀ i v, x i = .lit v → |v| ≤ LMAX) :
    ∀ (idx : List Nat) (c : Nat → Int) (d : Int), (∀ i ∈ idx, i < n) → B n x c d ≤ LMAX →
      ∃ r, foldLits x idx c d = .ok r ∧ B n x r.1 r.2.1 ≤ LMAX := by
  intro idx
  induction idx with
  | nil => intro c d _ h; exact ⟨_, rfl, h⟩
  | cons i is ih =>
    intro c d hn h
    rw [foldLits]
    split
    · rename_i v hx
      obtain ⟨d', h1, h2⟩ := fold_step n x c d v i (hn i (by simp)) hx (hl i v hx) h
      obtain ⟨r, h3, h4⟩ := ih _ _ (fun j hj => hn j (List.mem_cons_of_mem _ hj)) h2
      exact ⟨r, by rw [h1, Res.ok_bind, h3], h4⟩
    · exact ⟨_, rfl, h⟩

theorem merge_total (n : Nat) (x : Nat → Atom) (hl : ∀ i v, x i = .lit v → |v| ≤ LMAX) :
    ∀ (is : List Nat) (cur : Nat) (c : Nat → Int) (d : Int), (∀ i ∈ cur :: is, i < n) →
      (cur :: is).Nodup → B n x c d ≤ LMAX → ∃ r, merge x cur is c d = .ok r := by
  intro is
  induction is with
  | nil => intro cur c d _ _ _; exact ⟨_, rfl⟩
  | cons i is ih =>
    intro cur c d hn hnd hB
    have hnd0 := hnd
    simp only [List.nodup_cons, List.mem_cons, not_or] at hnd
    obtain ⟨⟨hci, hcis⟩, hiis, hisn⟩ := hnd
    have hndc : (cur :: is).Nodup := by rw [List.nodup_cons]; exact ⟨hcis, hisn⟩
    have hn' : ∀ j ∈ cur :: is, j < n := fun j hj => hn j (by simp at hj ⊢; tauto)
    rw [merge]
    split
    · rename_i hx
      have hi : i < n := hn i (by simp)
      have hc : cur < n := hn cur (by simp)
      -- the two terms together are bounded
      have h2 : |c cur| * weight (x cur) + |c i| * weight (x i) ≤
          T n (fun i => weight (x i)) (fun i => |c i|) := by
        have h3 := term_le n x (upd c i 0) cur hc
        rw [abs_upd, T_upd _ _ _ _ _ hi] at h3
        simp only [upd, hci, if_false, abs_zero] at h3
        linarith
      have hw := weight_pos (x cur)
      have hd0 := abs_nonneg d
      have ha := abs_nonneg (c cur)
      have hb := abs_nonneg (c i)
      unfold B at hB
      rw [hx] at h2
      have hs : |c cur + c i| ≤ |c cur| + |c i| := abs_add_le _ _
      have e1 : |c cur| ≤ |c cur| * weight (x cur) := by nlinarith
      have e2 : |c i| ≤ |c i| * weight (x cur) := by nlinarith
      rw [safePlus_total (by omega) (by omega) (by omega), Res.ok_bind]
      apply ih _ _ _ hn' hndc
      unfold B
      rw [abs_upd, T_upd _ _ _ _ _ hi, abs_upd, T_upd _ _ _ _ _ hc, hx]
      simp only [upd, abs_zero, Ne.symm hci, if_false]
      nlinarith
    · split
      · rename_i v hx
        obtain ⟨d', h1, h2⟩ := fold_step n x c d v i (hn i (by simp)) hx (hl i v hx) hB
        rw [h1, Res.ok_bind]
        exact ih _ _ _ hn' hndc h2
      · exact ih _ _ _ (fun j hj => hn j (List.mem_cons_of_mem _ hj)) (List.nodup_cons.1 hnd0).2 hB

end Linear
end MZ
