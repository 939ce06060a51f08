import Verif.Types.Sub
/-!
# C17: properties of the subtype relation and the common type
-/
namespace MZ
namespace Types

/-- The base types `bool`, `int`, `float`, `string` and `ann`. -/
def Base5 (t : Ty) : Prop := t.bt = .bool ∨ t.bt = .int ∨ t.bt = .float ∨ t.bt = .string ∨ t.bt = .ann

/-- Types a user can write, without tuples, records and type variables: the base types `bool`, `int`, `float`, `string` and `ann`;
only integers belong to an enumeration (for arrays the type id is an index of a table). -/
structure Ground (t : Ty) : Prop where
  base : Base5 t
  any : t.any = false
  enum : t.dim = 0 → t.bt ≠ .int → t.typeId = 0

/-- Specification of coercions between base types: booleans to numbers, integers to floats, and with strict enumerations a member of an
enumeration can be used as an integer but not as a member of another enumeration. -/
def BaseLe (strict : Bool) (a t : Ty) : Prop :=
  (a.bt = t.bt ∧ (strict = true → a.dim = 0 → a.typeId = t.typeId ∨ t.typeId = 0)) ∨
  (a.bt = .bool ∧ t.bt = .int) ∨ (a.bt = .bool ∧ t.bt = .float) ∨ (a.bt = .int ∧ t.bt = .float)

/-- Specification of the subtype relation: a fixed set can be used as an array; otherwise the dimensions, base types, `set of`, `var` and
`opt` have to match. -/
def SubSpec (strict : Bool) (a t : Ty) : Prop :=
  (a.dim = 0 ∧ a.set = true ∧ a.var = false ∧ a.bt ≠ .float ∧ t.dim ≠ 0 ∧ t.set = false ∧ BaseLe false a t ∧ (a.opt = true → t.opt = true)) ∨
  ((a.dim = t.dim ∨ (a.dim ≠ 0 ∧ t.dim = -1)) ∧ BaseLe strict a t ∧ a.set = t.set ∧ (a.var = true → t.var = true) ∧ (a.opt = true → t.opt = true))

theorem optOk_iff (a t : Ty) : optOk a t = true ↔ (a.opt = true → t.opt = true) := by
  unfold optOk; cases a.opt <;> cases t.opt <;> decide

theorem btSub_iff {strict : Bool} {a t : Ty} (ha : Base5 a) : btSub strict a t = true ↔ BaseLe strict a t := by
  unfold btSub BaseLe
  have hs : a.structBT = false := by
    rcases ha with h | h | h | h | h <;> simp [Ty.structBT, h]
  rw [hs, if_neg (by simp)]
  by_cases h : a.bt = t.bt ∧ (strict = false ∨ a.dim ≠ 0 ∨ a.typeId = t.typeId ∨ t.typeId = 0)
  · rw [if_pos h]
    simp only [true_iff]
    left
    refine ⟨h.1, fun h1 h2 => ?_⟩
    rcases h.2 with h' | h' | h' | h'
    · rw [h1] at h'; cases h'
    · exact absurd h2 h'
    · exact .inl h'
    · exact .inr h'
  · rw [if_neg h]
    have hn : ¬ (a.bt = t.bt ∧ (strict = true → a.dim = 0 → a.typeId = t.typeId ∨ t.typeId = 0)) := by
      rintro ⟨h1, h2⟩
      refine h ⟨h1, ?_⟩
      cases strict
      · exact .inl rfl
      · by_cases hd : a.dim = 0
        · exact .inr (.inr (h2 rfl hd))
        · exact .inr (.inl hd)
    simp only [hn, false_or]
    rcases ha with h | h | h | h | h <;> simp [h]

/-- **C17**. The subtype test is the specified relation, on all types without tuples, records and type variables. -/
theorem _root_.MZ.C17_subtype_iff {strict : Bool} {a t : Ty} (ha : Ground a) (ht : Ground t) :
    isSub strict a t = true ↔ SubSpec strict a t := by
  unfold isSub SubSpec
  have hb : a.bt ≠ .bot := by rcases ha.base with h | h | h | h | h <;> rw [h] <;> decide
  have htb : t.bt ≠ .bot := by rcases ht.base with h | h | h | h | h <;> rw [h] <;> decide
  have htt : t.bt ≠ .top := by rcases ht.base with h | h | h | h | h <;> rw [h] <;> decide
  have htt' : (t.bt == BT.top) = false := by simpa using htt
  simp only [ha.any, ht.any, Bool.false_eq_true, if_false]
  by_cases h1 : a.dim = 0 ∧ t.dim ≠ 0 ∧ a.set = true ∧ t.set = false ∧ a.bt ≠ .float ∧
      (a.bt = .bot ∨ btSub false a t = true ∨ t.bt = .top) ∧ a.var = false ∧ optOk a t = true
  · rw [if_pos h1]
    simp only [btSub_iff ha.base, optOk_iff, hb, htt, false_or, or_false] at h1
    simp only [true_iff]
    obtain ⟨g1, g2, g3, g4, g5, g6, g7, g8⟩ := h1
    exact .inl ⟨g1, g3, g7, g5, g2, g4, g6, g8⟩
  · rw [if_neg h1]
    simp only [btSub_iff ha.base, optOk_iff, hb, htt, false_or, or_false] at h1
    have hn : ¬ (a.dim = 0 ∧ a.set = true ∧ a.var = false ∧ a.bt ≠ .float ∧ t.dim ≠ 0 ∧ t.set = false ∧ BaseLe false a t ∧ (a.opt = true → t.opt = true)) := by
      rintro ⟨g1, g3, g7, g5, g2, g4, g6, g8⟩
      exact h1 ⟨g1, g2, g3, g4, g5, g6, g7, g8⟩
    simp only [hn, false_or]
    by_cases h2 : a.dim ≠ t.dim ∧ (a.dim = 0 ∨ t.dim ≠ -1)
    · rw [if_pos h2]
      simp only [Bool.false_eq_true, false_iff]
      rintro ⟨h, _⟩
      omega
    · rw [if_neg h2]
      have hd : a.dim = t.dim ∨ (a.dim ≠ 0 ∧ t.dim = -1) := by omega
      simp only [hd, true_and]
      by_cases h3 : a.var = t.var ∧ btSub strict a t = true ∧ a.set = t.set
      · rw [if_pos h3, optOk_iff, ← btSub_iff ha.base]
        exact ⟨fun h => ⟨h3.2.1, h3.2.2, fun h' => h3.1 ▸ h', h⟩, fun h => h.2.2.2⟩
      · rw [if_neg h3]
        by_cases h4 : a.var = false ∧ btSub strict a t = true ∧ a.set = t.set
        · rw [if_pos h4, optOk_iff, ← btSub_iff ha.base]
          simp [h4]
        · rw [if_neg h4, if_neg (fun h => htb h.2), if_neg (fun h => hb h.2.1), htt', ← btSub_iff ha.base]
          simp only [Bool.false_and, Bool.false_eq_true, false_iff]
          rintro ⟨g1, g2, g3, _⟩
          cases hv : a.var
          · exact h4 ⟨hv, g1, g2⟩
          · exact h3 ⟨by rw [hv, g3 hv], g1, g2⟩

theorem BaseLe.refl (strict : Bool) (a : Ty) : BaseLe strict a a := .inl ⟨rfl, fun _ _ => .inl rfl⟩

theorem BaseLe.trans {strict : Bool} {a b c : Ty} (hc : Ground c) (hdim : a.dim = 0 → b.dim = 0) (hbc : c.dim = 0 ∨ b.dim ≠ 0)
    (h1 : BaseLe strict a b) (h2 : BaseLe strict b c) :
    BaseLe strict a c := by
  unfold BaseLe at *
  rcases h1 with ⟨e1, g1⟩ | ⟨x1, y1⟩ | ⟨x1, y1⟩ | ⟨x1, y1⟩
  · rcases h2 with ⟨e2, g2⟩ | ⟨x2, y2⟩ | ⟨x2, y2⟩ | ⟨x2, y2⟩
    · left
      refine ⟨e1.trans e2, fun hs hd => ?_⟩
      have hbd := hdim hd
      rcases g1 hs hd with h | h <;> rcases g2 hs hbd with h' | h'
      · exact .inl (h.trans h')
      · exact .inr h'
      · exact .inr (h' ▸ h)
      · exact .inr h'
    · simp_all
    · simp_all
    · simp_all
  · rcases h2 with ⟨e2, g2⟩ | ⟨x2, y2⟩ | ⟨x2, y2⟩ | ⟨x2, y2⟩ <;> simp_all
  · rcases h2 with ⟨e2, g2⟩ | ⟨x2, y2⟩ | ⟨x2, y2⟩ | ⟨x2, y2⟩ <;> simp_all
  · rcases h2 with ⟨e2, g2⟩ | ⟨x2, y2⟩ | ⟨x2, y2⟩ | ⟨x2, y2⟩ <;> simp_all

theorem BaseLe.weaken {strict : Bool} {a b : Ty} (h : BaseLe strict a b) : BaseLe false a b := by
  rcases h with ⟨e, _⟩ | h
  · exact .inl ⟨e, by simp⟩
  · exact .inr h

/-- **C17**. The subtype relation is reflexive. -/
theorem _root_.MZ.C17_refl (strict : Bool) {a : Ty} (ha : Ground a) : isSub strict a a = true := by
  rw [C17_subtype_iff ha ha]
  exact .inr ⟨.inl rfl, BaseLe.refl _ _, rfl, id, id⟩

/-- **C17**. The subtype relation is transitive. -/
theorem _root_.MZ.C17_trans {strict : Bool} {a b c : Ty} (ha : Ground a) (hb : Ground b) (hc : Ground c)
    (h1 : isSub strict a b = true) (h2 : isSub strict b c = true) : isSub strict a c = true := by
  rw [C17_subtype_iff ha hb] at h1
  rw [C17_subtype_iff hb hc] at h2
  rw [C17_subtype_iff ha hc]
  rcases h1 with ⟨p1, p2, p3, p4, p5, p6, p7, p8⟩ | ⟨p1, p2, p3, p4, p5⟩
  · rcases h2 with ⟨q1, q2, q3, q4, q5, q6, q7, q8⟩ | ⟨q1, q2, q3, q4, q5⟩
    · exact absurd q1 p5
    · left
      have hcd : c.dim ≠ 0 := by rcases q1 with h | h <;> omega
      refine ⟨p1, p2, p3, p4, hcd, by rw [← q3]; exact p6, ?_, fun h => q5 (p8 h)⟩
      unfold BaseLe at p7 ⊢
      have q2' := q2.weaken
      unfold BaseLe at q2'
      simp only [Bool.false_eq_true, false_implies, and_true] at p7 q2' ⊢
      rcases p7 with e1 | ⟨x1, y1⟩ | ⟨x1, y1⟩ | ⟨x1, y1⟩ <;> rcases q2' with e2 | ⟨x2, y2⟩ | ⟨x2, y2⟩ | ⟨x2, y2⟩ <;> simp_all
  · rcases h2 with ⟨q1, q2, q3, q4, q5, q6, q7, q8⟩ | ⟨q1, q2, q3, q4, q5⟩
    · left
      have had : a.dim = 0 := by rcases p1 with h | h <;> omega
      have hav : a.var = false := by
        cases hv : a.var
        · rfl
        · rw [p4 hv] at q3; cases q3
      have p2' := p2.weaken
      unfold BaseLe at p2' q7 ⊢
      simp only [Bool.false_eq_true, false_implies, and_true] at p2' q7 ⊢
      refine ⟨had, by rw [p3, q2], hav, ?_, q5, q6, ?_, fun h => q8 (p5 h)⟩
      · rcases p2' with e1 | ⟨x1, y1⟩ | ⟨x1, y1⟩ | ⟨x1, y1⟩ <;> simp_all
      · rcases p2' with e1 | ⟨x1, y1⟩ | ⟨x1, y1⟩ | ⟨x1, y1⟩ <;> rcases q7 with e2 | ⟨x2, y2⟩ | ⟨x2, y2⟩ | ⟨x2, y2⟩ <;> simp_all
    · right
      refine ⟨?_, BaseLe.trans hc ?_ ?_ p2 q2, p3.trans q3, fun h => q4 (p4 h), fun h => q5 (p5 h)⟩
      · rcases p1 with h | h <;> rcases q1 with h' | h' <;> omega
      · intro h
        rcases p1 with h' | h' <;> omega
      · rcases q1 with h' | h' <;> omega

/-- **C17** (deviation). With type `bot` (the type of `<>` and of the elements of `{}` and `[]`) the relation is not transitive: `string` is
accepted as a subtype of `bot`, and `bot` as a subtype of `int`. -/
theorem _root_.MZ.C17_trans_fails_bot : ∃ a b c : Ty, isSub true a b = true ∧ isSub true b c = true ∧ isSub true a c = false :=
  ⟨⟨.string, false, false, false, false, false, 0, 0⟩, bot, ⟨.int, false, false, false, false, false, 0, 0⟩, by decide⟩

/-- **C17** (deviation). Even with strict enumerations, `bool` is a subtype of every enumeration, although `int` is not. -/
theorem _root_.MZ.C17_bool_enum : ∀ e, e ≠ 0 →
    isSub true ⟨.bool, false, false, false, false, false, 0, 0⟩ ⟨.int, false, false, false, false, false, e, 0⟩ = true ∧
    isSub true ⟨.int, false, false, false, false, false, 0, 0⟩ ⟨.int, false, false, false, false, false, e, 0⟩ = false := by
  intro e he
  constructor
  · simp [isSub, btSub, Ty.structBT, optOk]
  · simp [isSub, btSub, Ty.structBT, optOk, he, Ne.symm he]

end Types
end MZ
