import Verif.Types.Common
/-!
# C17: the common type does not depend on the order
-/
namespace MZ
namespace Types

theorem BaseLe.bt_antisymm {s s' : Bool} {a b : Ty} (h1 : BaseLe s a b) (h2 : BaseLe s' b a) : a.bt = b.bt := by
  rcases h1 with ⟨g, _⟩ | ⟨g1, g2⟩ | ⟨g1, g2⟩ | ⟨g1, g2⟩
  · exact g
  all_goals
    rcases h2 with ⟨g, _⟩ | ⟨g3, g4⟩ | ⟨g3, g4⟩ | ⟨g3, g4⟩
    · exact g.symm
    all_goals simp_all

theorem merge_comm {a b c d : Ty} (h : (c = a ∧ d = b) ∨ (c = b ∧ d = a) ∨ c = d) (hd : a.dim = b.dim) (hs : a.set = b.set) (ha : a.any = false) (hb : b.any = false)
    (hbt : c.bt = d.bt) (nb : a.bt ≠ .bot) (nb' : b.bt ≠ .bot) : merge a b c = merge b a d := by
  unfold merge
  have hb1 : ∀ x y : Bool, (if x ≠ y then true else x) = (if y ≠ x then true else y) := by decide
  have hb2 : ∀ x y : Bool, (if x ≠ y then true else y) = (if y ≠ x then true else x) := by decide
  have hb3 : ∀ x y z : Bool, (if x ≠ y then true else z) = (if y ≠ x then true else z) := by decide
  have ht1 : ∀ x y : Nat, (if x ≠ y ∧ a.bt ≠ .bot ∧ b.bt ≠ .bot then 0 else x) = (if y ≠ x ∧ b.bt ≠ .bot ∧ a.bt ≠ .bot then 0 else y) := by
    intro x y
    by_cases h : x = y
    · simp [h]
    · rw [if_pos ⟨h, nb, nb'⟩, if_pos ⟨Ne.symm h, nb', nb⟩]
  have ht2 : ∀ x y : Nat, (if x ≠ y ∧ a.bt ≠ .bot ∧ b.bt ≠ .bot then 0 else y) = (if y ≠ x ∧ b.bt ≠ .bot ∧ a.bt ≠ .bot then 0 else x) := by
    intro x y
    by_cases h : x = y
    · simp [h]
    · rw [if_pos ⟨h, nb, nb'⟩, if_pos ⟨Ne.symm h, nb', nb⟩]
  have ht3 : ∀ x y z : Nat, (if x ≠ y ∧ a.bt ≠ .bot ∧ b.bt ≠ .bot then 0 else z) = (if y ≠ x ∧ b.bt ≠ .bot ∧ a.bt ≠ .bot then 0 else z) := by
    intro x y z
    by_cases h : x = y
    · simp [h]
    · rw [if_pos ⟨h, nb, nb'⟩, if_pos ⟨Ne.symm h, nb', nb⟩]
  rcases h with ⟨rfl, rfl⟩ | ⟨rfl, rfl⟩ | rfl
  · rw [Ty.mk.injEq]
    exact ⟨hbt, hb1 _ _, hs, hb1 _ _, Bool.or_comm _ _, ha.trans hb.symm, ht1 _ _, hd⟩
  · rw [Ty.mk.injEq]
    exact ⟨hbt, hb2 _ _, hs.symm, hb2 _ _, Bool.or_comm _ _, hb.trans ha.symm, ht2 _ _, hd.symm⟩
  · rw [Ty.mk.injEq]
    exact ⟨rfl, hb3 _ _ _, rfl, hb3 _ _ _, Bool.or_comm _ _, rfl, ht3 _ _ _, rfl⟩

theorem commonBase_comm {strict : Bool} {a b : Ty} (ha : Base5 a) (hb : Base5 b) (haa : a.any = false) (hba : b.any = false)
    (hs : a.set = b.set) (hd : a.dim = b.dim) : commonBase strict a b = commonBase strict b a := by
  have fin : ∀ c d, ((c = a ∧ d = b) ∨ (c = b ∧ d = a) ∨ c = d) → c.bt = d.bt → finish a b c = finish b a d := by
    intro c d h hbt
    unfold finish
    rw [merge_comm h hd hs haa hba hbt ha.ne.1 hb.ne.1]
  unfold commonBase
  by_cases h1 : btSub strict b a = true
  · by_cases h2 : btSub strict a b = true
    · simp only [h1, h2, if_true]
      exact fin _ _ (.inl ⟨rfl, rfl⟩) (BaseLe.bt_antisymm ((btSub_iff ha).1 h2) ((btSub_iff hb).1 h1))
    · simp only [h1, h2, if_true, Bool.false_eq_true, if_false]
      exact fin _ _ (.inr (.inr rfl)) rfl
  · by_cases h2 : btSub strict a b = true
    · simp only [h1, h2, if_true, Bool.false_eq_true, if_false]
      exact fin _ _ (.inr (.inr rfl)) rfl
    · simp only [h1, h2, Bool.false_eq_true, if_false]

theorem eq_comm' {a b : Ty} (ha : Base5 a) (hb : Base5 b) : (a.eq b && a.typeId == b.typeId) = (b.eq a && b.typeId == a.typeId) := by
  rw [Bool.eq_iff_iff, Bool.and_eq_true, Bool.and_eq_true, eq_iff ha, eq_iff hb]
  simp only [beq_iff_eq]
  constructor
  · rintro ⟨⟨h1, h2, h3, h4, h5⟩, h6⟩
    exact ⟨⟨h1.symm, h2.symm, h3.symm, h4.symm, h5.symm⟩, h6.symm⟩
  · rintro ⟨⟨h1, h2, h3, h4, h5⟩, h6⟩
    exact ⟨⟨h1.symm, h2.symm, h3.symm, h4.symm, h5.symm⟩, h6.symm⟩

theorem eq_merge {a b : Ty} (ha : Base5 a) (haa : a.any = false) (hba : b.any = false) (he : (a.eq b && a.typeId == b.typeId) = true) :
    ({ a with cv := a.cv || b.cv } : Ty) = { b with cv := b.cv || a.cv } := by
  rw [Bool.and_eq_true, eq_iff ha, beq_iff_eq] at he
  obtain ⟨⟨h1, h2, h3, h4, h5⟩, h6⟩ := he
  rw [Ty.mk.injEq]
  exact ⟨h2, h1, h3, h4, Bool.or_comm _ _, haa.trans hba.symm, h6, h5⟩

theorem commonElem_comm {strict : Bool} {a b : Ty} (ha : Base5 a) (hb : Base5 b) (haa : a.any = false) (hba : b.any = false)
    (hd : a.dim = b.dim) : commonElem strict a b = commonElem strict b a := by
  unfold commonElem
  rw [eq_bot ha, eq_bot hb, ← eq_comm' ha hb]
  by_cases he : (a.eq b && a.typeId == b.typeId) = true
  · simp only [he, Bool.true_or, if_true]
    exact eq_merge ha haa hba he
  · simp only [he, Bool.or_false, Bool.false_eq_true, if_false]
    by_cases hs : a.set = b.set
    · rw [if_neg (by simp [ha.ne, hb.ne, hs]), if_neg (by simp [ha.ne, hb.ne, hs])]
      exact commonBase_comm ha hb haa hba hs hd
    · rw [if_pos (.inr (.inr ⟨hs, ha.ne.1, hb.ne.1⟩)), if_pos (.inr (.inr ⟨Ne.symm hs, hb.ne.1, ha.ne.1⟩))]

theorem zip_same_comm : ∀ l m : List Nat, (List.zip l m).map (fun p => if p.1 = p.2 then p.1 else 0) =
    (List.zip m l).map (fun p => if p.1 = p.2 then p.1 else 0)
  | [], m => by cases m <;> rfl
  | _ :: _, [] => rfl
  | x :: l, y :: m => by
    simp only [List.zip_cons_cons, List.map_cons]
    rw [zip_same_comm l m]
    by_cases h : x = y
    · simp [h]
    · simp [h, Ne.symm h]

theorem commonArr_comm (T : Tab) {a b c : Ty} (hd : a.dim = b.dim) : commonArr T a b c = commonArr T b a c := by
  unfold commonArr
  by_cases h : c.bt = .unknown
  · rw [if_pos h, if_pos h]
  · rw [if_neg h, if_neg h]
    by_cases hi : a.typeId ≠ 0 ∧ b.typeId ≠ 0
    · rw [if_pos hi, if_pos hi.symm]
      simp only [zip_same_comm (T.arr a.typeId) (T.arr b.typeId), hd]
    · rw [if_neg hi, if_neg (fun h => hi h.symm), hd]

/-- **C17**. The common type of two types does not depend on their order. -/
theorem _root_.MZ.C17_common_comm (T : Tab) (strict : Bool) {a b : Ty} (ha : Ground a) (hb : Ground b) :
    commonType T strict a b = commonType T strict b a := by
  unfold commonType
  rw [eq_bot ha.base, eq_bot hb.base, ← eq_comm' ha.base hb.base]
  by_cases he : (a.eq b && a.typeId == b.typeId) = true
  · simp only [he, Bool.true_or, if_true]
    exact eq_merge ha.base ha.any hb.any he
  · simp only [he, Bool.or_false, Bool.false_eq_true, if_false]
    obtain ⟨p1, p2, p3, p4, p5⟩ := setToArr_same T a b
    obtain ⟨q1, q2, q3, q4, q5⟩ := setToArr_same T b a
    generalize setToArr T a b = u1 at *
    generalize setToArr T b a = u2 at *
    have b1 : Base5 u1 := by unfold Base5; rw [p1]; exact ha.base
    have b2 : Base5 u2 := by unfold Base5; rw [q1]; exact hb.base
    by_cases hk : u1.dim = u2.dim ∧ u1.set = u2.set
    · obtain ⟨hd, hs⟩ := hk
      have k1 : ¬ (u1.bt = .unknown ∨ u2.bt = .unknown ∨ u1.dim ≠ u2.dim ∨ (u1.set ≠ u2.set ∧ u1.bt ≠ .bot ∧ u2.bt ≠ .bot)) := by
        simp [b1.ne, b2.ne, hs, hd]
      have k2 : ¬ (u2.bt = .unknown ∨ u1.bt = .unknown ∨ u2.dim ≠ u1.dim ∨ (u2.set ≠ u1.set ∧ u2.bt ≠ .bot ∧ u1.bt ≠ .bot)) := by
        simp [b1.ne, b2.ne, hs, hd]
      rw [if_neg k1, if_neg k2]
      by_cases h0 : u1.dim = 0
      · rw [if_neg (not_not.2 h0), if_neg (not_not.2 (hd ▸ h0))]
        exact commonBase_comm b1 b2 (p4.trans ha.any) (q4.trans hb.any) hs hd
      · rw [if_pos h0, if_pos (hd ▸ h0)]
        obtain ⟨x1, x2, x3, x4, x5, x6, x7⟩ := elemType_fields T u1
        obtain ⟨y1, y2, y3, y4, y5, y6, y7⟩ := elemType_fields T u2
        rw [commonArr_comm T hd, commonElem_comm (by unfold Base5; rw [x1]; exact b1) (by unfold Base5; rw [y1]; exact b2)
          (by rw [x5, p4]; exact ha.any) (by rw [y5, q4]; exact hb.any) (by rw [x7, y7])]
    · rw [if_pos, if_pos]
      · right; right
        by_cases hd : u1.dim = u2.dim
        · exact .inr ⟨fun h => hk ⟨hd, h.symm⟩, b2.ne.1, b1.ne.1⟩
        · exact .inl (Ne.symm hd)
      · right; right
        by_cases hd : u1.dim = u2.dim
        · exact .inr ⟨fun h => hk ⟨hd, h⟩, b1.ne.1, b2.ne.1⟩
        · exact .inl hd

/-- **C17** (deviation). For the types of `<>` and `{}` the order matters: one order gives a plain type, the other a set. -/
theorem _root_.MZ.C17_common_comm_fails (T : Tab) :
    (commonType T true ⟨.bot, false, false, true, false, false, 0, 0⟩ ⟨.bot, false, true, false, false, false, 0, 0⟩).set = false ∧
    (commonType T true ⟨.bot, false, true, false, false, false, 0, 0⟩ ⟨.bot, false, false, true, false, false, 0, 0⟩).set = true :=
  ⟨rfl, rfl⟩

/-- Non-vacuity: the common type of `opt bool` and `var int` is `var opt int`; of `array[int] of E` and `array[int] of var float`,
`array[int] of var float`; of two enumerations, `int` (relaxed) or none (strict). -/
example (T : Tab) : commonType T true ⟨.bool, false, false, true, false, false, 0, 0⟩ ⟨.int, true, false, false, false, false, 0, 0⟩ =
    ⟨.int, true, false, true, false, false, 0, 0⟩ := rfl
example (T : Tab) : commonType T true ⟨.int, false, false, false, false, false, 7, 1⟩ ⟨.float, true, false, false, false, false, 0, 1⟩ =
    arrType T 1 ⟨.float, true, false, false, false, false, if (T.arr 7).getLastD 0 ≠ 0 then 0 else 0, 0⟩ := by
  simp [commonType, Ty.eq, bot, setToArr, elemType, commonElem, commonBase, btSub, finish, merge, commonArr, arrType, Ty.structBT]
example (T : Tab) : commonType T false ⟨.int, false, false, false, false, false, 1, 0⟩ ⟨.int, false, false, false, false, false, 2, 0⟩ =
    ⟨.int, false, false, false, false, false, 0, 0⟩ ∧
    commonType T true ⟨.int, false, false, false, false, false, 1, 0⟩ ⟨.int, false, false, false, false, false, 2, 0⟩ = unknown := ⟨rfl, rfl⟩
example : Ground ⟨.int, true, true, false, false, false, 3, 0⟩ := ⟨.inr (.inl rfl), rfl, fun _ h => absurd rfl h⟩

end Types
end MZ
