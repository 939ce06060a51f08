import Verif.Linear.Lemmas
/-!
# Unboxed literals (include/minizinc/ast.hh 402–525, 587–606), 64-bit pointers

Integers and floats are stored in the bits of an `Expression*`. A pointer is a `BitVec 64`, a double is its IEEE bit pattern.
-/
namespace MZ
namespace Unboxed

abbrev Ptr := BitVec 64

/-- 587–593 `isUnboxedVal`. -/
def isVal (e : Ptr) : Bool := (e &&& 3#64) != 0#64
/-- 594–600 `isUnboxedInt`. -/
def isInt (e : Ptr) : Bool := (e &&& 3#64) == 2#64
/-- 601–605 `isUnboxedFloatVal`. -/
def isFloat (e : Ptr) : Bool := (e &&& 1#64) == 1#64

/-- 402–418 `unboxedIntToIntVal`. -/
def toIntVal (e : Ptr) : Int :=
  let i := e &&& ~~~ 7#64
  if (e &&& 4#64) == 0#64 then ((i >>> 3).toNat : Int) else -((i >>> 3).toNat : Int)

/-- 423–424 `maxUnboxedVal`. -/
def maxVal : Int := 2 ^ 61 - 1

/-- 419–433 `intToUnboxedInt`; `none` is the null pointer. -/
def ofInt (i : Int) : Option Ptr :=
  if i < -maxVal ∨ i > maxVal then none
  else
    let j : Int := if i < 0 then -i else i
    let p : Ptr := (BitVec.ofInt 64 j <<< 3) ||| 2#64
    some (if i < 0 then p ||| 4#64 else p)

/-- 447–463 `unboxedFloatToFloatVal`. -/
def toFloat (e : Ptr) : BitVec 64 :=
  let u := e >>> 1
  let exponent := (u &&& (0x3FF#64 <<< 52)) >>> 52
  let exponent := if exponent != 0#64 then exponent + 512#64 else exponent
  let sign : BitVec 64 := if (u &&& (1#64 <<< 62)) != 0#64 then 1#64 else 0#64
  (sign <<< 63) ||| (exponent <<< 52) ||| (u &&& 0xFFFFFFFFFFFFF#64)

/-- 464–490 `doubleToUnboxedFloatVal`. -/
def ofFloat (d : BitVec 64) : Option Ptr :=
  let exponent := (d &&& (0x7FF#64 <<< 52)) >>> 52
  if exponent ≠ 0#64 ∧ (exponent.toNat < 513 ∨ exponent.toNat > 1534) then none
  else
    let exponent := if exponent ≠ 0#64 then exponent - 512#64 else exponent
    let sign : Bool := (d &&& (1#64 <<< 63)) != 0#64
    let b := d &&& ~~~ (0x7FF#64 <<< 52)
    let b := (b <<< 1) ||| 1#64
    some (b ||| ((if sign then 1#64 else 0#64) <<< 63) ||| (exponent <<< 53))

/-- 492–501 `isTagged`. -/
def isTagged (e : Ptr) : Bool := if isVal e then false else (e &&& 7#64) == 4#64
/-- 503–510 `tag`. -/
def tag (e : Ptr) : Ptr := e ||| 4#64
/-- 511–520 `untag`. -/
def untag (e : Ptr) : Ptr := if isVal e then e else e &&& ~~~ 4#64

/-! ## Specification -/

/-- The biased exponent of a double (IEEE 754, bits 52–62). -/
def biased (d : BitVec 64) : Nat := d.toNat / 2 ^ 52 % 2 ^ 11

/-- A pointer to a heap node: aligned to 8 bytes. -/
def Aligned (e : Ptr) : Prop := e.toNat % 8 = 0

/-! ## Bits -/

theorem lsb3 (e : Ptr) : e &&& 3#64 = BitVec.ofNat 64 (e.toNat % 4) := by
  apply BitVec.eq_of_toNat_eq
  rw [BitVec.toNat_and]
  have : (3#64).toNat = 2 ^ 2 - 1 := by decide
  rw [this, Nat.and_two_pow_sub_one_eq_mod, BitVec.toNat_ofNat]
  omega

theorem lsb7 (e : Ptr) : e &&& 7#64 = BitVec.ofNat 64 (e.toNat % 8) := by
  apply BitVec.eq_of_toNat_eq
  rw [BitVec.toNat_and]
  have : (7#64).toNat = 2 ^ 3 - 1 := by decide
  rw [this, Nat.and_two_pow_sub_one_eq_mod, BitVec.toNat_ofNat]
  omega

theorem lsb1 (e : Ptr) : e &&& 1#64 = BitVec.ofNat 64 (e.toNat % 2) := by
  apply BitVec.eq_of_toNat_eq
  rw [BitVec.toNat_and]
  have : (1#64).toNat = 2 ^ 1 - 1 := by decide
  rw [this, Nat.and_two_pow_sub_one_eq_mod, BitVec.toNat_ofNat]
  omega

theorem isVal_iff (e : Ptr) : isVal e = true ↔ e.toNat % 4 ≠ 0 := by
  unfold isVal
  rw [lsb3, bne_iff_ne, ne_eq, ← BitVec.toNat_inj, BitVec.toNat_ofNat]
  have : (0#64).toNat = 0 := rfl
  rw [this]
  omega

theorem isInt_iff (e : Ptr) : isInt e = true ↔ e.toNat % 4 = 2 := by
  unfold isInt
  rw [lsb3, beq_iff_eq, ← BitVec.toNat_inj, BitVec.toNat_ofNat]
  have : (2#64).toNat = 2 := rfl
  rw [this]
  omega

theorem isFloat_iff (e : Ptr) : isFloat e = true ↔ e.toNat % 2 = 1 := by
  unfold isFloat
  rw [lsb1, beq_iff_eq, ← BitVec.toNat_inj, BitVec.toNat_ofNat]
  have : (1#64).toNat = 1 := rfl
  rw [this]
  omega

/-- `x ||| b` for a number below the lowest bit of `x`. -/
theorem or_low (a b k : Nat) (h : b < 2 ^ k) : (a * 2 ^ k) ||| b = a * 2 ^ k + b := by
  have := Nat.shiftLeft_add_eq_or_of_lt h a
  rw [Nat.shiftLeft_eq] at this
  exact this.symm

theorem ofInt_toNat {i : Int} (h : -maxVal ≤ i ∧ i ≤ maxVal) :
    ∃ p, ofInt i = some p ∧ p.toNat = 8 * i.natAbs + (if i < 0 then 6 else 2) := by
  have hm : maxVal = 2305843009213693951 := by decide
  rw [hm] at h
  have hj : (if i < 0 then -i else i) = (i.natAbs : Int) := by split <;> omega
  have hlt : i.natAbs < 2 ^ 61 := by
    have : (2 : Nat) ^ 61 = 2305843009213693952 := by norm_num
    omega
  have e1 : (BitVec.ofInt 64 (i.natAbs : Int) <<< 3).toNat = i.natAbs * 2 ^ 3 := by
    rw [BitVec.toNat_shiftLeft, BitVec.toNat_ofInt, Nat.shiftLeft_eq]
    have : ((i.natAbs : Int) % ((2 ^ 64 : Nat) : Int)).toNat = i.natAbs := by
      have : (2 : Nat) ^ 64 = 18446744073709551616 := by norm_num
      rw [this]
      omega
    rw [this]
    apply Nat.mod_eq_of_lt
    omega
  have e2 : ((BitVec.ofInt 64 (i.natAbs : Int) <<< 3) ||| 2#64).toNat = i.natAbs * 2 ^ 3 + 2 := by
    rw [BitVec.toNat_or, e1]
    exact or_low _ 2 3 (by norm_num)
  have e3 : ((BitVec.ofInt 64 (i.natAbs : Int) <<< 3) ||| 2#64 ||| 4#64).toNat = i.natAbs * 2 ^ 3 + 6 := by
    rw [BitVec.toNat_or, BitVec.toNat_or, e1, Nat.or_assoc]
    exact or_low _ 6 3 (by norm_num)
  unfold ofInt
  rw [hm, if_neg (by omega)]
  simp only [hj]
  refine ⟨_, rfl, ?_⟩
  split
  · rw [e3]; omega
  · rw [e2]; omega

theorem and_bit (e : Ptr) (k : Nat) (hk : k < 64) : ((e &&& BitVec.twoPow 64 k) == 0#64) = ! e.getLsbD k := by
  rw [BitVec.and_twoPow]
  cases h : e.getLsbD k
  · simp
  · have : BitVec.twoPow 64 k ≠ 0#64 := by
      intro e
      have := congrArg (fun x => BitVec.getLsbD x k) e
      simp [hk] at this
    simp [this]

theorem and4 (e : Ptr) : ((e &&& 4#64) == 0#64) = ! e.getLsbD 2 := and_bit e 2 (by norm_num)

theorem toIntVal_eq (e : Ptr) : toIntVal e = if e.toNat / 4 % 2 = 0 then ((e.toNat / 8 : Nat) : Int) else -((e.toNat / 8 : Nat) : Int) := by
  have e1 : ((e &&& ~~~ 7#64) >>> 3).toNat = e.toNat / 8 := by
    have : (e &&& ~~~ 7#64) >>> 3 = e >>> 3 := by
      apply BitVec.eq_of_getLsbD_eq
      intro i hi
      rw [BitVec.getLsbD_ushiftRight, BitVec.getLsbD_ushiftRight, BitVec.getLsbD_and]
      by_cases h : 3 + i < 64
      · have : (~~~ 7#64).getLsbD (3 + i) = true := by
          have hall : ∀ j < 61, (~~~ 7#64).getLsbD (3 + j) = true := by decide
          exact hall i (by omega)
        rw [this, Bool.and_true]
      · rw [BitVec.getLsbD_of_ge _ _ (by omega)]; rfl
    rw [this, BitVec.toNat_ushiftRight, Nat.shiftRight_eq_div_pow]
  have e2 : e.getLsbD 2 = decide (e.toNat / 4 % 2 = 1) := by
    rw [BitVec.getLsbD, Nat.testBit_eq_decide_div_mod_eq]
  unfold toIntVal
  simp only [e1, and4, e2]
  by_cases h : e.toNat / 4 % 2 = 0
  · simp [h]
  · have : e.toNat / 4 % 2 = 1 := by omega
    simp [this]

/-- **C14**. Integers: exactly those of magnitude below 2^61 are stored in a pointer, reading gives back the same integer, the
pointer is recognised as an unboxed integer and as nothing else. -/
theorem _root_.MZ.C14_int (i : Int) :
    (∀ p, ofInt i = some p → isInt p = true ∧ isVal p = true ∧ isFloat p = false ∧ p ≠ 0#64 ∧ toIntVal p = i) ∧
    (ofInt i = none ↔ 2 ^ 61 ≤ |i|) := by
  have hm : maxVal = 2305843009213693951 := by decide
  have h61 : (2 : Int) ^ 61 = 2305843009213693952 := by norm_num
  by_cases h : -maxVal ≤ i ∧ i ≤ maxVal
  · obtain ⟨p, e, hp⟩ := ofInt_toNat h
    constructor
    · intro q hq
      rw [e] at hq
      cases hq
      refine ⟨(isInt_iff p).2 ?_, (isVal_iff p).2 ?_, ?_, ?_, ?_⟩
      · split at hp <;> omega
      · split at hp <;> omega
      · cases hf : isFloat p
        · rfl
        · have := (isFloat_iff p).1 hf
          split at hp <;> omega
      · rintro rfl
        simp at hp
        split at hp <;> omega
      · rw [toIntVal_eq]
        split at hp <;> split <;> omega
    · rw [e]
      simp only [reduceCtorEq, false_iff, not_le]
      rw [h61, abs_lt]
      omega
  · constructor
    · intro p hp
      unfold ofInt at hp
      rw [if_pos (by omega)] at hp
      cases hp
    · unfold ofInt
      rw [if_pos (by omega)]
      simp only [true_iff]
      rw [h61, le_abs]
      omega

/-! ## Floats -/

theorem field_exp (d : BitVec 64) : ((d &&& (0x7FF#64 <<< 52)) >>> 52).toNat = biased d := by
  have : (d &&& (0x7FF#64 <<< 52)) >>> 52 = (d >>> 52) &&& 0x7FF#64 := by
    apply BitVec.eq_of_getLsbD_eq
    intro i hi
    simp only [BitVec.getLsbD_ushiftRight, BitVec.getLsbD_and, BitVec.getLsbD_shiftLeft]
    by_cases h : 52 + i < 64
    · have : ¬ 52 + i < 52 := by omega
      simp [h]
    · rw [BitVec.getLsbD_of_ge _ (52 + i) (by omega)]
      simp
  rw [this, BitVec.toNat_and, BitVec.toNat_ushiftRight, Nat.shiftRight_eq_div_pow]
  have : (0x7FF#64).toNat = 2 ^ 11 - 1 := by decide
  rw [this, Nat.and_two_pow_sub_one_eq_mod]
  rfl

/-- The bits of an encoded float, `x` being the exponent field. -/
theorem enc_bits (d x : BitVec 64) (i : Nat) (hi : i < 64) :
    ((((d &&& ~~~ (0x7FF#64 <<< 52)) <<< 1) ||| 1#64) |||
      ((if ((d &&& (1#64 <<< 63)) != 0#64) = true then 1#64 else 0#64) <<< 63) ||| (x <<< 53)).getLsbD i =
    if i = 0 then true else if i < 53 then d.getLsbD (i - 1) else if i < 63 then x.getLsbD (i - 53) else (d.getLsbD 63 || x.getLsbD 10) := by
  have hs : ((d &&& (1#64 <<< 63)) != 0#64) = d.getLsbD 63 := by
    have : (1#64 <<< 63) = BitVec.twoPow 64 63 := by decide
    rw [this, bne, and_bit d 63 (by norm_num), Bool.not_not]
  rw [hs]
  simp only [BitVec.getLsbD_or, BitVec.getLsbD_shiftLeft, BitVec.getLsbD_and]
  have m : ∀ j < 64, (~~~ (0x7FF#64 <<< 52)).getLsbD j = (decide (j < 52) || decide (j = 63)) := by decide
  have one : ∀ j < 64, (1#64).getLsbD j = decide (j = 0) := by decide
  have sg : ∀ j < 64, (if d.getLsbD 63 = true then 1#64 else 0#64).getLsbD j = (d.getLsbD 63 && decide (j = 0)) := by
    intro j hj
    cases d.getLsbD 63
    · simp
    · simpa using one j hj
  rw [m (i - 1) (by omega), one i hi, sg (i - 63) (by omega)]
  by_cases h0 : i = 0
  · subst h0; simp
  · by_cases h1 : i < 53
    · have : i - 1 < 52 := by omega
      have a : ¬ i < 1 := by omega
      have b : i < 63 := by omega
      simp [h0, h1, this, hi, a, b]
    · by_cases h2 : i < 63
      · have a : ¬ i - 1 < 52 := by omega
        have b : ¬ i - 1 = 63 := by omega
        simp [h0, h1, h2, a, b, hi]
      · have : i = 63 := by omega
        subst this
        simp

/-- The bits of a decoded float, `x` being the exponent. -/
theorem dec_bits (u x : BitVec 64) (hx : x.toNat < 2 ^ 11) (i : Nat) (hi : i < 64) :
    (((if ((u &&& (1#64 <<< 62)) != 0#64) = true then 1#64 else 0#64 : BitVec 64) <<< 63) ||| (x <<< 52) ||| (u &&& 0xFFFFFFFFFFFFF#64)).getLsbD i =
    if i < 52 then u.getLsbD i else if i < 63 then x.getLsbD (i - 52) else u.getLsbD 62 := by
  have hs : ((u &&& (1#64 <<< 62)) != 0#64) = u.getLsbD 62 := by
    have : (1#64 <<< 62) = BitVec.twoPow 64 62 := by decide
    rw [this, bne, and_bit u 62 (by norm_num), Bool.not_not]
  rw [hs]
  simp only [BitVec.getLsbD_or, BitVec.getLsbD_shiftLeft, BitVec.getLsbD_and]
  have m : ∀ j < 64, (0xFFFFFFFFFFFFF#64).getLsbD j = decide (j < 52) := by decide
  have one : ∀ j < 64, (1#64).getLsbD j = decide (j = 0) := by decide
  have sg : ∀ j < 64, (if u.getLsbD 62 = true then 1#64 else 0#64).getLsbD j = (u.getLsbD 62 && decide (j = 0)) := by
    intro j hj
    cases u.getLsbD 62
    · simp
    · simpa using one j hj
  rw [m i hi, sg (i - 63) (by omega)]
  by_cases h1 : i < 52
  · have a : i < 63 := by omega
    simp [h1, a]
  · by_cases h2 : i < 63
    · simp [h1, h2, hi]
    · have : i = 63 := by omega
      subst this
      have : x.getLsbD 11 = false := by
        rw [BitVec.getLsbD]; exact Nat.testBit_lt_two_pow hx
      rw [show 63 - 52 = 11 from rfl, this]
      simp

theorem exp_bits (u x : BitVec 64) (hx : x.toNat < 2 ^ 10) (h : ∀ i, i < 10 → u.getLsbD (52 + i) = x.getLsbD i) :
    (u &&& (0x3FF#64 <<< 52)) >>> 52 = x := by
  apply BitVec.eq_of_getLsbD_eq
  intro i hi
  simp only [BitVec.getLsbD_ushiftRight, BitVec.getLsbD_and]
  by_cases h1 : i < 10
  · have m : ∀ j < 10, (0x3FF#64 <<< 52).getLsbD (52 + j) = true := by decide
    rw [m i h1, Bool.and_true, h i h1]
  · have hf : x.getLsbD i = false := by
      rw [BitVec.getLsbD]
      apply Nat.testBit_lt_two_pow
      exact hx.trans_le (Nat.pow_le_pow_right (by norm_num) (by omega))
    rw [hf]
    by_cases h2 : i < 12
    · have m : ∀ j < 2, (0x3FF#64 <<< 52).getLsbD (62 + j) = false := by decide
      have := m (i - 10) (by omega)
      rw [show 62 + (i - 10) = 52 + i by omega] at this
      rw [this, Bool.and_false]
    · rw [BitVec.getLsbD_of_ge _ (52 + i) (by omega)]; rfl

/-- **C14**. Floats: exactly those with biased exponent 0 or in 513..1534 (zeros, denormals and magnitudes from 2^-510 up to
2^512) are stored in a pointer, reading gives back the same bits, and the pointer is recognised as an unboxed float and as
nothing else. -/
theorem _root_.MZ.C14_float (d : BitVec 64) :
    (∀ p, ofFloat d = some p → isFloat p = true ∧ isVal p = true ∧ isInt p = false ∧ p ≠ 0#64 ∧ toFloat p = d) ∧
    (ofFloat d = none ↔ biased d ≠ 0 ∧ (biased d < 513 ∨ 1534 < biased d)) := by
  have hb : biased d < 2 ^ 11 := Nat.mod_lt _ (by norm_num)
  have he := field_exp d
  have hz : (d &&& (0x7FF#64 <<< 52)) >>> 52 = 0#64 ↔ biased d = 0 := by
    rw [← he, ← BitVec.toNat_inj]; rfl
  unfold ofFloat
  simp only [ne_eq, hz, he]
  constructor
  · intro p hp
    split at hp
    · cases hp
    rename_i hr
    -- the exponent field
    obtain ⟨x, hxe⟩ : ∃ x, x = (if ¬ biased d = 0 then (d &&& (0x7FF#64 <<< 52)) >>> 52 - 512#64 else (d &&& (0x7FF#64 <<< 52)) >>> 52) := ⟨_, rfl⟩
    have hp' := Option.some.inj hp
    rw [← hxe] at hp'
    have hx : x.toNat < 2 ^ 10 := by
      rw [hxe]
      split
      · rename_i h
        have h2 : 513 ≤ biased d ∧ biased d ≤ 1534 := by omega
        rw [BitVec.toNat_sub, he]
        have : (512#64).toNat = 512 := rfl
        rw [this]
        norm_num
        omega
      · rw [he]
        norm_num
        omega
    have hx10 : x.getLsbD 10 = false := by rw [BitVec.getLsbD]; exact Nat.testBit_lt_two_pow hx
    have pb : ∀ i, i < 64 → p.getLsbD i = if i = 0 then true else if i < 53 then d.getLsbD (i - 1) else if i < 63 then x.getLsbD (i - 53)
        else d.getLsbD 63 := by
      intro i hi
      rw [← hp', enc_bits d x i hi, hx10, Bool.or_false]
    have p0 : p.toNat % 2 = 1 := by
      have := pb 0 (by norm_num)
      rw [if_pos rfl, BitVec.getLsbD, Nat.testBit_zero] at this
      simpa using this
    refine ⟨(isFloat_iff p).2 p0, (isVal_iff p).2 (by omega), ?_, ?_, ?_⟩
    · cases hi : isInt p
      · rfl
      · have := (isInt_iff p).1 hi; omega
    · rintro rfl; simp at p0
    · have ub : ∀ i, i < 63 → (p >>> 1).getLsbD i = p.getLsbD (i + 1) := by
        intro i _
        rw [BitVec.getLsbD_ushiftRight, Nat.add_comm]
      have hexp : ((p >>> 1) &&& (0x3FF#64 <<< 52)) >>> 52 = x := by
        apply exp_bits _ _ hx
        intro i hi
        rw [ub _ (by omega), pb _ (by omega), if_neg (by omega), if_neg (by omega), if_pos (by omega)]
        congr 1
        omega
      have hdec : (if ((x != 0#64) = true) then x + 512#64 else x) = (d &&& (0x7FF#64 <<< 52)) >>> 52 := by
        by_cases h : biased d = 0
        · have e0 := hz.2 h
          have hx0 : x = 0#64 := by rw [hxe, if_neg (not_not.2 h), e0]
          rw [hx0, e0]
          simp
        · have h2 : 513 ≤ biased d ∧ biased d ≤ 1534 := by omega
          rw [hxe, if_pos h]
          have : (d &&& (0x7FF#64 <<< 52)) >>> 52 - 512#64 ≠ 0#64 := by
            intro e
            have := congrArg BitVec.toNat e
            rw [BitVec.toNat_sub, he] at this
            have h5 : (512#64).toNat = 512 := rfl
            rw [h5] at this
            simp at this
            omega
          rw [if_pos (by simpa [bne_iff_ne] using this), BitVec.sub_add_cancel]
      unfold toFloat
      simp only [hexp, hdec]
      apply BitVec.eq_of_getLsbD_eq
      intro i hi
      rw [dec_bits _ _ (by rw [he]; exact hb) i hi]
      by_cases h1 : i < 52
      · rw [if_pos h1, ub i (by omega), pb _ (by omega), if_neg (by omega), if_pos (by omega)]
        congr 1
      · rw [if_neg h1]
        by_cases h2 : i < 63
        · rw [if_pos h2, BitVec.getLsbD_ushiftRight, BitVec.getLsbD_and]
          have m : ∀ j < 11, (0x7FF#64 <<< 52).getLsbD (52 + j) = true := by decide
          rw [m (i - 52) (by omega), Bool.and_true]
          congr 1
          omega
        · have : i = 63 := by omega
          subst this
          rw [if_neg (by omega), ub 62 (by omega), pb 63 (by omega)]
          simp
  · split
    · rename_i h
      simp only [true_iff]
      exact ⟨h.1, by omega⟩
    · rename_i h
      simp only [reduceCtorEq, false_iff]
      intro h'
      exact h ⟨h'.1, by omega⟩

/-- **C14**. A pointer to a node is neither; tagging it keeps that, is recognised and can be undone; unboxed values are never
taken for tagged pointers. -/
theorem _root_.MZ.C14_pointer (e : Ptr) :
    (Aligned e → isVal e = false ∧ isInt e = false ∧ isFloat e = false ∧ isTagged e = false ∧ untag e = e ∧
      isVal (tag e) = false ∧ isTagged (tag e) = true ∧ untag (tag e) = e) ∧
    (isVal e = true → isTagged e = false ∧ untag e = e) := by
  have val : ∀ x : Ptr, x.toNat % 4 = 0 → isVal x = false := by
    intro x h
    cases hv : isVal x
    · rfl
    · exact absurd h ((isVal_iff x).1 hv)
  constructor
  · intro ha
    unfold Aligned at ha
    have v : isVal e = false := val e (by omega)
    have tn : (tag e).toNat = e.toNat + 4 := by
      unfold tag
      rw [BitVec.toNat_or]
      have : e.toNat = (e.toNat / 8) * 2 ^ 3 := by omega
      rw [this]
      have := or_low (e.toNat / 8) 4 3 (by norm_num)
      simpa using this
    have vt : isVal (tag e) = false := val _ (by omega)
    have e2 : e.getLsbD 2 = false := by
      rw [BitVec.getLsbD, Nat.testBit_eq_decide_div_mod_eq]
      have : e.toNat / 2 ^ 2 % 2 = 0 := by omega
      rw [this]; rfl
    refine ⟨v, ?_, ?_, ?_, ?_, vt, ?_, ?_⟩
    · cases hi : isInt e
      · rfl
      · have := (isInt_iff e).1 hi; omega
    · cases hi : isFloat e
      · rfl
      · have := (isFloat_iff e).1 hi; omega
    · unfold isTagged
      rw [v, lsb7, ha]
      decide
    · unfold untag
      rw [v]
      simp only [Bool.false_eq_true, if_false]
      apply BitVec.eq_of_getLsbD_eq
      intro i hi
      have m : ∀ j < 64, (~~~ 4#64).getLsbD j = decide (j ≠ 2) := by decide
      rw [BitVec.getLsbD_and, m i hi]
      by_cases h : i = 2
      · subst h; rw [e2]; rfl
      · simp [h]
    · unfold isTagged
      rw [vt, lsb7, tn]
      have : (e.toNat + 4) % 8 = 4 := by omega
      rw [this]
      decide
    · unfold untag
      rw [vt]
      simp only [Bool.false_eq_true, if_false, tag]
      apply BitVec.eq_of_getLsbD_eq
      intro i hi
      have m : ∀ j < 64, (~~~ 4#64).getLsbD j = decide (j ≠ 2) := by decide
      have m4 : ∀ j < 64, (4#64).getLsbD j = decide (j = 2) := by decide
      rw [BitVec.getLsbD_and, BitVec.getLsbD_or, m i hi, m4 i hi]
      by_cases h : i = 2
      · subst h; rw [e2]; rfl
      · simp [h]
  · intro hv
    simp [isTagged, untag, hv]

/-- **C14**. Consequence: two stored literals have the same pointer iff they are the same literal. -/
theorem _root_.MZ.C14_distinct {i j : Int} {d d' : BitVec 64} {p q r t : Ptr} (hi : ofInt i = some p) (hj : ofInt j = some q)
    (hd : ofFloat d = some r) (hd' : ofFloat d' = some t) : (p = q ↔ i = j) ∧ (r = t ↔ d = d') ∧ p ≠ r := by
  refine ⟨⟨?_, ?_⟩, ⟨?_, ?_⟩, ?_⟩
  · rintro rfl
    rw [← ((C14_int i).1 p hi).2.2.2.2, ← ((C14_int j).1 p hj).2.2.2.2]
  · rintro rfl
    rw [hi] at hj; exact Option.some.inj hj
  · rintro rfl
    rw [← ((C14_float d).1 r hd).2.2.2.2, ← ((C14_float d').1 r hd').2.2.2.2]
  · rintro rfl
    rw [hd] at hd'; exact Option.some.inj hd'
  · rintro rfl
    have a := ((C14_int i).1 p hi).2.2.1
    rw [((C14_float d).1 p hd).1] at a
    cases a

/-- Non-vacuity: the largest unboxed integer, a negative one, 1.5 and -0.0; and 1e300, which does not fit. -/
example : ofInt (2 ^ 61 - 1) = some 0xFFFFFFFFFFFFFFFA#64 ∧ ofInt (-5) = some 46#64 ∧ toIntVal 46#64 = -5 ∧
    (ofFloat 0x3FF8000000000000#64).isSome = true ∧ (ofFloat 0x8000000000000000#64).isSome = true ∧
    ofFloat 0x7E37E43C8800759C#64 = none := by decide +kernel

end Unboxed
end MZ
