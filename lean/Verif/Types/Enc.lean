import Verif.Types.Model
/-!
# C16: the number of a type
-/
namespace MZ
namespace Types

theorem toInt_eq (t : Ty) : toInt t = (1 - b2n t.set : Nat) * 2 ^ 26 + t.bt.num * 2 ^ 22 + b2n t.var * 2 ^ 21 + b2n t.opt * 2 ^ 20 + t.typeId * 2 ^ 4 +
    (if t.dim = -1 then 1 else if t.dim = 0 then 0 else t.dim + 1) := by
  unfold toInt
  simp only [Nat.shiftLeft_eq]
  push_cast
  rfl

theorem BT.num_lt (b : BT) : b.num < 10 := by cases b <;> decide
theorem BT.num_inj : ∀ a b : BT, a.num = b.num → a = b := by intro a b h; cases a <;> cases b <;> first | rfl | (revert h; decide)
theorem BT.ofNum_num (b : BT) : BT.ofNum b.num = some b := by cases b <;> rfl
theorem b2n_inj {a b : Bool} (h : b2n a = b2n b) : a = b := by cases a <;> cases b <;> simp_all [b2n]
theorem b2n_le (a : Bool) : b2n a ≤ 1 := by cases a <;> decide

/-- What `toInt` has to tell apart: everything a user can write in a type (base type, `var`, `set of`, `opt`, dimensions, and the
enumeration, tuple or record it refers to), but not the marks `cv` and `any` of the type checker. -/
def SameType (a b : Ty) : Prop := a.bt = b.bt ∧ a.var = b.var ∧ a.set = b.set ∧ a.opt = b.opt ∧ a.typeId = b.typeId ∧ a.dim = b.dim

/-- **C16**. Two types have the same number exactly if they are the same type; in particular the comparison of types and the
structural comparison of expressions, which use the number, do not confuse types. -/
theorem _root_.MZ.C16_injective {a b : Ty} (ha : a.Wf) (hb : b.Wf) : toInt a = toInt b ↔ SameType a b := by
  constructor
  · intro h
    rw [toInt_eq, toInt_eq] at h
    obtain ⟨a1, a2, a3⟩ := ha
    obtain ⟨b1, b2, b3⟩ := hb
    have x1 := BT.num_lt a.bt
    have x2 := BT.num_lt b.bt
    have y1 := b2n_le a.set
    have y2 := b2n_le b.set
    have y3 := b2n_le a.var
    have y4 := b2n_le b.var
    have y5 := b2n_le a.opt
    have y6 := b2n_le b.opt
    have d : ∀ d : Int, -1 ≤ d → d < 7 → 0 ≤ (if d = -1 then 1 else if d = 0 then 0 else d + 1) ∧ (if d = -1 then 1 else if d = 0 then 0 else d + 1) < 8 := by
      intro d h1 h2
      split
      · omega
      · split <;> omega
    have da := d a.dim a2 a3
    have db := d b.dim b2 b3
    have di : ∀ d e : Int, -1 ≤ d → -1 ≤ e → (if d = -1 then 1 else if d = 0 then 0 else d + 1) = (if e = -1 then 1 else if e = 0 then 0 else e + 1) → d = e := by
      intro d e h1 h2 h
      split at h <;> split at h
      all_goals first | omega | (split at h <;> first | omega | (split at h <;> omega))
    generalize hda : (if a.dim = -1 then 1 else if a.dim = 0 then 0 else a.dim + 1 : Int) = da' at h da
    generalize hdb : (if b.dim = -1 then 1 else if b.dim = 0 then 0 else b.dim + 1 : Int) = db' at h db
    have hd' : da' = db' := by omega
    have ht : a.typeId = b.typeId := by omega
    have ho : b2n a.opt = b2n b.opt := by omega
    have hv : b2n a.var = b2n b.var := by omega
    have hbt : a.bt.num = b.bt.num := by omega
    have hs : b2n a.set = b2n b.set := by omega
    refine ⟨BT.num_inj _ _ hbt, b2n_inj hv, b2n_inj hs, b2n_inj ho, ht, di _ _ a2 b2 ?_⟩
    rw [hda, hdb, hd']
  · rintro ⟨h1, h2, h3, h4, h5, h6⟩
    rw [toInt_eq, toInt_eq, h1, h2, h3, h4, h5, h6]

/-- **C16**. The comparison of types is a total order up to being the same type. -/
theorem _root_.MZ.C16_order {a b c : Ty} (ha : a.Wf) (hb : b.Wf) (_hc : c.Wf) :
    (cmp a b = 0 ↔ SameType a b) ∧ cmp b a = - cmp a b ∧ (cmp a b ≤ 0 → cmp b c ≤ 0 → cmp a c ≤ 0) := by
  rw [← C16_injective ha hb]
  unfold cmp
  refine ⟨?_, ?_, ?_⟩
  · split
    · omega
    · split <;> omega
  · repeat' split
    all_goals omega
  · intro h1 h2
    repeat' split at h1
    all_goals repeat' split at h2
    all_goals repeat' split
    all_goals omega

/-- **C16**. The number is a non-negative 32-bit integer, so no shift overflows. -/
theorem _root_.MZ.C16_range {a : Ty} (ha : a.Wf) : 0 ≤ toInt a ∧ toInt a < 2 ^ 27 := by
  rw [toInt_eq]
  obtain ⟨a1, a2, a3⟩ := ha
  have x1 := BT.num_lt a.bt
  have y1 := b2n_le a.set
  have y3 := b2n_le a.var
  have y5 := b2n_le a.opt
  split
  · omega
  · split <;> omega

/-- **C16**. Decoding the number of a type gives the type back if its type id is below 4096 (and loses `cv` and `any`). -/
theorem _root_.MZ.C16_roundtrip_partial {a : Ty} (ha : a.Wf) (hid : a.typeId < 4096) :
    ∃ b, fromInt (toInt a).toNat = some b ∧ SameType a b := by
  have hr := C16_range ha
  have he := toInt_eq a
  obtain ⟨a1, a2, a3⟩ := ha
  have x1 := BT.num_lt a.bt
  have y1 := b2n_le a.set
  have y3 := b2n_le a.var
  have y5 := b2n_le a.opt
  obtain ⟨k, hk, hk8⟩ : ∃ k : Nat, (if a.dim = -1 then 1 else if a.dim = 0 then 0 else a.dim + 1 : Int) = k ∧ k < 8 := by
    refine ⟨(if a.dim = -1 then 1 else if a.dim = 0 then 0 else a.dim + 1 : Int).toNat, ?_, ?_⟩
    · split
      · rfl
      · split <;> omega
    · split
      · decide
      · split <;> omega
  rw [hk] at he
  have hn : (toInt a).toNat = (1 - b2n a.set) * 2 ^ 26 + a.bt.num * 2 ^ 22 + b2n a.var * 2 ^ 21 + b2n a.opt * 2 ^ 20 + a.typeId * 2 ^ 4 + k := by omega
  generalize (toInt a).toNat = n at hn
  have m1 : (0x1 : Nat) = 2 ^ 1 - 1 := rfl
  have mF : (0xF : Nat) = 2 ^ 4 - 1 := rfl
  have m7 : (0x7 : Nat) = 2 ^ 3 - 1 := rfl
  have mFFF : (0xFFF : Nat) = 2 ^ 12 - 1 := by norm_num
  have e1 : (n >>> 22) &&& 0xF = a.bt.num := by
    rw [mF, Nat.and_two_pow_sub_one_eq_mod, Nat.shiftRight_eq_div_pow]; omega
  have e2 : (n >>> 26) &&& 1 = 1 - b2n a.set := by
    rw [m1, Nat.and_two_pow_sub_one_eq_mod, Nat.shiftRight_eq_div_pow]; omega
  have e3 : (n >>> 21) &&& 1 = b2n a.var := by
    rw [m1, Nat.and_two_pow_sub_one_eq_mod, Nat.shiftRight_eq_div_pow]; omega
  have e4 : (n >>> 20) &&& 1 = b2n a.opt := by
    rw [m1, Nat.and_two_pow_sub_one_eq_mod, Nat.shiftRight_eq_div_pow]; omega
  have e5 : (n >>> 4) &&& 0xFFF = a.typeId := by
    rw [mFFF, Nat.and_two_pow_sub_one_eq_mod, Nat.shiftRight_eq_div_pow]; omega
  have e6 : n &&& 0x7 = k := by
    rw [m7, Nat.and_two_pow_sub_one_eq_mod]; omega
  unfold fromInt
  rw [e1, e2, e3, e4, e5, e6, BT.ofNum_num]
  refine ⟨_, rfl, rfl, ?_, ?_, ?_, rfl, ?_⟩
  · cases a.var <;> rfl
  · cases a.set <;> rfl
  · cases a.opt <;> rfl
  · show a.dim = if (k : Int) = 0 then 0 else if (k : Int) = 1 then -1 else (k : Int) - 1
    split at hk
    · rename_i hd
      rw [if_neg (by omega), if_pos (by omega), hd]
    · split at hk
      · rw [if_pos (by omega)]; assumption
      · rw [if_neg (by omega), if_neg (by omega)]; omega

/-- **C16** (deviation). The decoder keeps only twelve of the sixteen bits of the type id, so with more than 4096 registered types it
confuses them: the type with id 4097 comes back with id 1. -/
theorem _root_.MZ.C16_roundtrip_fails :
    ∃ a b : Ty, a.Wf ∧ fromInt (toInt a).toNat = some b ∧ a.typeId = 4097 ∧ b.typeId = 1 := by
  refine ⟨⟨.tuple, false, false, false, false, false, 4097, 0⟩, ⟨.tuple, false, false, false, false, false, 1, 0⟩, ?_, ?_, rfl, rfl⟩
  · refine ⟨by decide, by decide, by decide⟩
  · decide +kernel

example : toInt ⟨.int, true, false, false, false, false, 3, 2⟩ = 2 ^ 26 + 2 ^ 22 + 2 ^ 21 + 3 * 16 + 3 := by decide

end Types
end MZ
