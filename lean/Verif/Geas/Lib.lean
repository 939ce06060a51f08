import Verif.Geas.Spec
import Mathlib.Order.Interval.Finset.Basic
import Mathlib.Data.Int.Interval
import Mathlib.Data.Finset.Max
import Mathlib.Tactic.Ring
import Mathlib.Tactic.Linarith
import Mathlib.Tactic.Push

/-!
# The library files for Geas

`share/minizinc/geas/*.mzn`: constraints that are defined by others.  The definitions are read as statements about values.
-/

namespace MZ
namespace Geas

/-- `share/minizinc/geas/redefinitions.mzn:69-74`, `set_in_reif`, for a set with values. -/
def setInReif (x : Int) (s : Finset Int) (hs : s.Nonempty) (b : Bool) : Prop :=
  if (s.card : Int) = s.max' hs - s.min' hs + 1 then (b = true ↔ x ≥ s.min' hs ∧ x ≤ s.max' hs)
  else ((∃ k ∈ s, x = k) ∨ b = false) ∧ ∀ k ∈ s, x = k → b = true

/-- `share/minizinc/geas/redefinitions.mzn:82-92`, `int_pow` with a known exponent: the value that `z` must have. -/
def intPow (x : Int) : Nat → Int → Int
  | 0, _ => 0
  | fuel + 1, y =>
    if y = 0 then 1
    else if y = 1 then x
    else
      let zp := intPow x fuel (y.tdiv 2)
      if y.tmod 2 = 0 then zp * zp else x * zp * zp

/-- `share/minizinc/geas/redefinitions.mzn:55-62`, `int_lin_eq_reif`, for the auxiliary variables `p` and `q`. -/
def linEqReif (s k : Int) (r p q : Bool) : Prop :=
  (r = true ↔ (p = true ∧ q = true)) ∧ (p = true ↔ s ≤ k) ∧ (q = true ↔ -s ≤ -k)

/-- `bool_clause` of values, as used in `share/minizinc/geas/redefinitions.mzn:64-67`. -/
def clauseB (ps ns : List Bool) : Prop := true ∈ ps ∨ false ∈ ns

/-- `share/minizinc/geas/redefinitions.mzn:63-67`, `bool_xor`. -/
def boolXor (x y r : Bool) : Prop :=
  clauseB [x, y] [r] ∧ clauseB [] [x, y, r] ∧ clauseB [x, r] [y] ∧ clauseB [y, r] [x]

/-- `share/minizinc/geas/fzn_value_precede_int.mzn:1-5`, for the auxiliary variable `p`; the array has the index set `1..n`. -/
def valuePrecede (s t : Int) (x : List Int) (p : Int) : Prop :=
  (1 ≤ p ∧ p ≤ x.length) ∧
  (∀ (i : Nat) v, x[i]? = some v → p ≤ i + 1 → v = s ∨ p < i + 1) ∧
  (∀ (i : Nat) v, x[i]? = some v → v = t → p < i + 1)

/-- `share/minizinc/geas/fzn_inverse.mzn:3-6`; the arrays have the index sets `1..n` and `1..m`. -/
def inverse (x y : List Int) : Prop :=
  x.Pairwise (· ≠ ·) ∧ y.Pairwise (· ≠ ·) ∧
  ∀ (i j : Nat) v w, x[i]? = some v → y[j]? = some w → (v = (j : Int) + 1 ↔ w = (i : Int) + 1)

/-- Membership in a set. -/
theorem _root_.MZ.C89_set_in_reif (x : Int) (s : Finset Int) (hs : s.Nonempty) (b : Bool) : setInReif x s hs b ↔ (b = true ↔ x ∈ s) := by
  unfold setInReif
  split_ifs with h
  · have hsub : s ⊆ Finset.Icc (s.min' hs) (s.max' hs) := fun v hv => Finset.mem_Icc.mpr ⟨Finset.min'_le s v hv, Finset.le_max' s v hv⟩
    have heq : s = Finset.Icc (s.min' hs) (s.max' hs) := by
      apply Finset.eq_of_subset_of_card_le hsub
      rw [Int.card_Icc]; omega
    have : x ∈ s ↔ x ≥ s.min' hs ∧ x ≤ s.max' hs := by
      conv_lhs => rw [heq]
      rw [Finset.mem_Icc]
    rw [this]
  · have : (∃ k ∈ s, x = k) ↔ x ∈ s := by simp
    rw [this]
    constructor
    · rintro ⟨h1, h2⟩
      refine ⟨fun hb => ?_, fun hx => h2 x hx rfl⟩
      rcases h1 with h1 | h1
      · exact h1
      · rw [hb] at h1; simp at h1
    · intro h1
      refine ⟨?_, fun k hk e => h1.mpr (e ▸ hk)⟩
      cases b with
      | false => exact .inr rfl
      | true => exact .inl (h1.mp rfl)

/-- Powers with a known exponent that is not negative. -/
theorem _root_.MZ.C89_int_pow_partial (x : Int) (y fuel : Nat) (h : y < fuel) : intPow x fuel y = x ^ y := by
  induction fuel generalizing y with
  | zero => omega
  | succ n ih =>
    unfold intPow
    by_cases h0 : y = 0
    · subst h0; simp
    by_cases h1 : y = 1
    · subst h1; simp
    have e : ((y : Int).tdiv 2) = ((y / 2 : Nat) : Int) := by
      rw [Int.tdiv_eq_ediv_of_nonneg (by omega)]; push_cast; rfl
    have e' : ((y : Int).tmod 2) = ((y % 2 : Nat) : Int) := by
      rw [Int.tmod_eq_emod_of_nonneg (by omega)]; push_cast; rfl
    rw [if_neg (by omega), if_neg (by omega), e, e', ih (y / 2) (by omega)]
    have hy : y = y / 2 + y / 2 + y % 2 := by omega
    dsimp only
    by_cases hm : y % 2 = 0
    · rw [if_pos (by omega), ← pow_add]; congr 1; omega
    · rw [if_neg (by omega), mul_assoc, ← pow_add]
      conv_rhs => rw [hy, show y % 2 = 1 by omega, pow_succ]
      ring

/-- For negative exponents the value is wrong: the inverse of 2 is 2. -/
theorem _root_.MZ.C89_int_pow_fails : intPow 2 5 (-1) = 2 ∧ intPow 2 5 (-2) = 4 := by decide

/-- Linear equations with a result. -/
theorem _root_.MZ.C89_lin_eq_reif (s k : Int) (r : Bool) : (∃ p q, linEqReif s k r p q) ↔ (r = true ↔ s = k) := by
  unfold linEqReif
  constructor
  · rintro ⟨p, q, h1, h2, h3⟩; rw [h1, h2, h3]; omega
  · intro h
    refine ⟨decide (s ≤ k), decide (-s ≤ -k), ?_, by simp, by simp⟩
    rw [h, decide_eq_true_eq, decide_eq_true_eq]; omega

/-- Exclusive or. -/
theorem _root_.MZ.C89_xor (x y r : Bool) : boolXor x y r ↔ r = (x ^^ y) := by
  unfold boolXor clauseB
  cases x <;> cases y <;> cases r <;> decide

/-- Precedence of values, if the first value occurs. -/
theorem _root_.MZ.C89_value_precede_partial (s t : Int) (x : List Int) (hst : s ≠ t) :
    (∃ p, valuePrecede s t x p) ↔ s ∈ x ∧ ∀ (j : Nat), x[j]? = some t → ∃ i < j, x[i]? = some s := by
  unfold valuePrecede
  constructor
  · rintro ⟨p, ⟨h1, h2⟩, h3, h4⟩
    have hlt : (p - 1).toNat < x.length := by omega
    have hp : x[(p - 1).toNat]? = some x[(p - 1).toNat] := by simp [hlt]
    have hs : x[(p - 1).toNat] = s := by
      rcases h3 _ _ hp (by omega) with h | h
      · exact h
      · omega
    rw [hs] at hp
    refine ⟨List.mem_of_getElem? hp, fun j hj => ⟨(p - 1).toNat, ?_, hp⟩⟩
    have := h4 j t hj rfl
    omega
  · rintro ⟨h1, h2⟩
    -- the first occurrence
    have hf : x.findIdx (· == s) < x.length := List.findIdx_lt_length_of_exists ⟨s, h1, by simp⟩
    have hfe : x[x.findIdx (· == s)] = s := by
      have := List.findIdx_getElem (w := hf)
      simpa using this
    refine ⟨(x.findIdx (· == s) : Int) + 1, ⟨by omega, by omega⟩, ?_, ?_⟩
    · intro i v hi hle
      by_cases e : i = x.findIdx (· == s)
      · left; subst e; rw [List.getElem?_eq_getElem hf, hfe] at hi; exact (Option.some.inj hi).symm
      · right; omega
    · intro i v hi hv
      subst hv
      obtain ⟨k, hk, hk'⟩ := h2 i hi
      have hkl := (List.getElem?_eq_some_iff.mp hk').1
      have : x.findIdx (· == s) ≤ k := by
        by_contra hn
        push Not at hn
        have := List.not_of_lt_findIdx hn
        rw [(List.getElem?_eq_some_iff.mp hk').2] at this
        simp at this
      omega

/-- If neither value occurs, the constraint is violated although nothing needs preceding. -/
theorem _root_.MZ.C89_value_precede_fails : ¬ ∃ p, valuePrecede 1 2 [3] p := by
  rw [MZ.C89_value_precede_partial 1 2 [3] (by decide)]
  simp

/-- Inverse functions. -/
theorem _root_.MZ.C89_inverse (x y : List Int) (hx : ∀ v ∈ x, 1 ≤ v ∧ v ≤ y.length) (hy : ∀ v ∈ y, 1 ≤ v ∧ v ≤ x.length) :
    inverse x y ↔ ∀ (i j : Nat), i < x.length → j < y.length → (x[i]? = some ((j : Int) + 1) ↔ y[j]? = some ((i : Int) + 1)) := by
  unfold inverse
  constructor
  · rintro ⟨_, _, h⟩ i j hi hj
    have := h i j x[i] y[j] (by simp [hi]) (by simp [hj])
    simpa [hi, hj] using this
  · intro h
    have inj : ∀ (x y : List Int), (∀ v ∈ x, 1 ≤ v ∧ v ≤ y.length) →
        (∀ (i j : Nat), i < x.length → j < y.length → (x[i]? = some ((j : Int) + 1) ↔ y[j]? = some ((i : Int) + 1))) →
        x.Pairwise (· ≠ ·) := by
      intro x y hx h
      rw [List.pairwise_iff_getElem]
      intro i j hi hj hij e
      have hv := hx x[i] (List.getElem_mem hi)
      have h1 := (h i (x[i] - 1).toNat hi (by omega)).mp (by simp [hi]; omega)
      have h2 := (h j (x[i] - 1).toNat hj (by omega)).mp (by simp [hj, ← e]; omega)
      rw [h1] at h2
      have := Option.some.inj h2
      omega
    refine ⟨inj x y hx h, inj y x hy (fun i j hi hj => (h j i hj hi).symm), fun i j v w hv hw => ?_⟩
    have := h i j (List.getElem?_eq_some_iff.mp hv).1 (List.getElem?_eq_some_iff.mp hw).1
    rw [hv, hw] at this
    simpa using this

end Geas
end MZ
