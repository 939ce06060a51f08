import Verif.Types.SubProps
/-!
# C17: the common type
-/
namespace MZ
namespace Types

theorem Base5.ne {t : Ty} (h : Base5 t) : t.bt ≠ .bot ∧ t.bt ≠ .top ∧ t.bt ≠ .unknown := by
  rcases h with h | h | h | h | h <;> rw [h] <;> decide

/-- What the common type of two types with the same base category looks like. -/
structure IsCommon (strict : Bool) (a b c : Ty) : Prop where
  base : (c.bt = a.bt ∧ BaseLe strict b a) ∨ (c.bt = b.bt ∧ BaseLe strict a b)
  set : c.set = a.set ∧ c.set = b.set
  var : c.var = (a.var || b.var)
  opt : c.opt = (a.opt || b.opt)
  tid : c.typeId = if a.typeId = b.typeId then a.typeId else 0
  dim : c.dim = a.dim
  any : c.any = false

theorem eq_iff {a b : Ty} (h : Base5 a) : a.eq b = true ↔ a.var = b.var ∧ a.bt = b.bt ∧ a.set = b.set ∧ a.opt = b.opt ∧ a.dim = b.dim := by
  have : a.structBT = false := by rcases h with h | h | h | h | h <;> simp [Ty.structBT, h]
  simp [Ty.eq, this, and_assoc]

theorem eq_bot {a : Ty} (h : Base5 a) : a.eq bot = false := by
  rw [Bool.eq_false_iff]
  intro he
  rw [eq_iff h] at he
  exact h.ne.1 he.2.1

theorem finish_spec {strict : Bool} {a b c : Ty} (ha : Base5 a) (hb : Base5 b) (haa : a.any = false) (hba : b.any = false)
    (hs : a.set = b.set) (hd : a.dim = b.dim) (hcc : (c = a ∧ BaseLe strict b a) ∨ (c = b ∧ BaseLe strict a b))
    (hc : (finish a b c).bt ≠ .unknown) : IsCommon strict a b (finish a b c) := by
  unfold finish at hc ⊢
  split at hc
  · exact absurd rfl hc
  · rename_i hvos
    rw [if_neg hvos]
    have k1 : ∀ x y : Bool, (if x ≠ y then true else x) = (x || y) := by decide
    have k2 : ∀ x y : Bool, (if x ≠ y then true else y) = (x || y) := by decide
    have kt : (merge a b c).typeId = if a.typeId = b.typeId then a.typeId else 0 := by
      show (if a.typeId ≠ b.typeId ∧ a.bt ≠ .bot ∧ b.bt ≠ .bot then 0 else c.typeId) = _
      by_cases h : a.typeId = b.typeId
      · rw [if_neg (by simp [h]), if_pos h]
        rcases hcc with ⟨h', _⟩ | ⟨h', _⟩ <;> rw [h']
        exact h.symm
      · rw [if_pos ⟨h, ha.ne.1, hb.ne.1⟩, if_neg h]
    rcases hcc with ⟨rfl, hle⟩ | ⟨rfl, hle⟩
    · exact ⟨.inl ⟨rfl, hle⟩, ⟨rfl, hs⟩, k1 _ _, k1 _ _, kt, rfl, haa⟩
    · exact ⟨.inr ⟨rfl, hle⟩, ⟨hs.symm, rfl⟩, k2 _ _, k2 _ _, kt, hd.symm, hba⟩

theorem commonBase_spec {strict : Bool} {a b : Ty} (ha : Base5 a) (hb : Base5 b) (haa : a.any = false) (hba : b.any = false)
    (hs : a.set = b.set) (hd : a.dim = b.dim) (hc : (commonBase strict a b).bt ≠ .unknown) :
    IsCommon strict a b (commonBase strict a b) := by
  unfold commonBase at hc ⊢
  by_cases h1 : btSub strict b a = true
  · rw [if_pos h1] at hc ⊢
    exact finish_spec ha hb haa hba hs hd (.inl ⟨rfl, (btSub_iff hb).1 h1⟩) hc
  · rw [if_neg h1] at hc ⊢
    by_cases h2 : btSub strict a b = true
    · rw [if_pos h2] at hc ⊢
      exact finish_spec ha hb haa hba hs hd (.inr ⟨rfl, (btSub_iff ha).1 h2⟩) hc
    · rw [if_neg h2] at hc
      exact absurd rfl hc

theorem commonElem_spec {strict : Bool} {a b : Ty} (ha : Base5 a) (hb : Base5 b) (haa : a.any = false) (hba : b.any = false)
    (hd : a.dim = b.dim) (hc : (commonElem strict a b).bt ≠ .unknown) :
    IsCommon strict a b (commonElem strict a b) := by
  unfold commonElem at hc ⊢
  rw [eq_bot ha, eq_bot hb] at hc ⊢
  by_cases he : a.eq b && a.typeId == b.typeId
  · simp only [he, Bool.true_or, if_true] at hc ⊢
    rw [Bool.and_eq_true, eq_iff ha] at he
    obtain ⟨⟨e1, e2, e3, e4, e5⟩, e6⟩ := he
    have e6 : a.typeId = b.typeId := by simpa using e6
    exact ⟨.inl ⟨rfl, .inl ⟨e2.symm, fun _ _ => .inl e6.symm⟩⟩, ⟨rfl, e3⟩, by simp [e1], by simp [e4], by simp [e6], rfl, haa⟩
  · have he' : (a.eq b && a.typeId == b.typeId) = false := by simpa using he
    simp only [he', Bool.or_false, Bool.false_eq_true, if_false, ha.ne, hb.ne, false_or, ne_eq, not_false_eq_true, and_true] at hc ⊢
    split at hc
    · exact absurd rfl hc
    · rename_i hs
      rw [if_neg hs]
      exact commonBase_spec ha hb haa hba (not_not.1 hs) hd hc

/-- The element type with the flags of `t`. -/
theorem elemType_fields (T : Tab) (t : Ty) : (elemType T t).bt = t.bt ∧ (elemType T t).var = t.var ∧ (elemType T t).set = t.set ∧
    (elemType T t).opt = t.opt ∧ (elemType T t).any = t.any ∧ (elemType T t).cv = t.cv ∧ (elemType T t).dim = 0 := by
  unfold elemType
  split
  · rename_i h; exact ⟨rfl, rfl, rfl, rfl, rfl, rfl, h⟩
  · split <;> exact ⟨rfl, rfl, rfl, rfl, rfl, rfl, rfl⟩

theorem arrType_fields (T : Tab) (d : Int) (t : Ty) : (arrType T d t).bt = t.bt ∧ (arrType T d t).var = t.var ∧ (arrType T d t).set = t.set ∧
    (arrType T d t).opt = t.opt ∧ (arrType T d t).any = t.any ∧ (arrType T d t).cv = t.cv ∧ (arrType T d t).dim = d := by
  unfold arrType
  split <;> exact ⟨rfl, rfl, rfl, rfl, rfl, rfl, rfl⟩

theorem commonArr_fields (T : Tab) {a b c : Ty} (h : c.bt ≠ .unknown) : (commonArr T a b c).bt = c.bt ∧ (commonArr T a b c).var = c.var ∧
    (commonArr T a b c).set = c.set ∧ (commonArr T a b c).opt = c.opt ∧ (commonArr T a b c).any = c.any ∧ (commonArr T a b c).dim = a.dim := by
  unfold commonArr
  rw [if_neg h]
  split
  · exact ⟨rfl, rfl, rfl, rfl, rfl, rfl⟩
  · obtain ⟨h1, h2, h3, h4, h5, _, h7⟩ := arrType_fields T a.dim c
    exact ⟨h1, h2, h3, h4, h5, h7⟩

/-- Common type of arrays: as for scalars, except that the type id is an index of a table. -/
structure IsCommonA (a b c : Ty) : Prop where
  base : (c.bt = a.bt ∧ BaseLe false b a) ∨ (c.bt = b.bt ∧ BaseLe false a b)
  set : c.set = a.set ∧ c.set = b.set
  var : c.var = (a.var || b.var)
  opt : c.opt = (a.opt || b.opt)
  dim : c.dim = a.dim
  any : c.any = false

theorem baseLe_false {a b : Ty} : BaseLe false a b ↔ a.bt = b.bt ∨ (a.bt = .bool ∧ b.bt = .int) ∨ (a.bt = .bool ∧ b.bt = .float) ∨ (a.bt = .int ∧ b.bt = .float) := by
  simp [BaseLe]

theorem setToArr_of_ne (T : Tab) {a b : Ty} (h : ¬ (a.dim = 0 ∧ a.set = true ∧ b.dim = 1)) : setToArr T a b = a := by
  unfold setToArr; rw [if_neg h]

theorem setToArr_fields (T : Tab) {a b : Ty} (h : a.dim = 0 ∧ a.set = true ∧ b.dim = 1) : (setToArr T a b).bt = a.bt ∧
    (setToArr T a b).var = a.var ∧ (setToArr T a b).set = false ∧ (setToArr T a b).opt = a.opt ∧ (setToArr T a b).any = a.any ∧
    (setToArr T a b).cv = a.cv ∧ (setToArr T a b).dim = 1 := by
  unfold setToArr; rw [if_pos h]; exact arrType_fields T 1 _

theorem setToArr_same (T : Tab) (a b : Ty) : (setToArr T a b).bt = a.bt ∧ (setToArr T a b).var = a.var ∧ (setToArr T a b).opt = a.opt ∧
    (setToArr T a b).any = a.any ∧ (setToArr T a b).cv = a.cv := by
  by_cases h : a.dim = 0 ∧ a.set = true ∧ b.dim = 1
  · obtain ⟨h1, h2, _, h4, h5, h6, _⟩ := setToArr_fields T h
    exact ⟨h1, h2, h4, h5, h6⟩
  · rw [setToArr_of_ne T h]; exact ⟨rfl, rfl, rfl, rfl, rfl⟩

/-- The common type, when it exists, in the three situations: scalars and sets, arrays, a set with a one-dimensional array. -/
theorem commonType_spec {T : Tab} {strict : Bool} {a b : Ty} (ha : Ground a) (hb : Ground b) (hc : (commonType T strict a b).bt ≠ .unknown) :
    (a.dim = 0 ∧ b.dim = 0 ∧ IsCommon strict a b (commonType T strict a b)) ∨
    (a.dim ≠ 0 ∧ a.dim = b.dim ∧ IsCommonA a b (commonType T strict a b)) ∨
    (a.dim = 0 ∧ a.set = true ∧ b.dim = 1 ∧ IsCommonA { a with dim := 1, set := false } b (commonType T strict a b)) ∨
    (b.dim = 0 ∧ b.set = true ∧ a.dim = 1 ∧ IsCommonA a { b with dim := 1, set := false } (commonType T strict a b)) := by
  unfold commonType at hc ⊢
  rw [eq_bot ha.base, eq_bot hb.base] at hc ⊢
  by_cases he : a.eq b && a.typeId == b.typeId
  · simp only [he, Bool.true_or, if_true] at hc ⊢
    rw [Bool.and_eq_true, eq_iff ha.base] at he
    obtain ⟨⟨e1, e2, e3, e4, e5⟩, e6⟩ := he
    have e6 : a.typeId = b.typeId := by simpa using e6
    by_cases h0 : a.dim = 0
    · left
      refine ⟨h0, e5 ▸ h0, ?_⟩
      exact ⟨.inl ⟨rfl, .inl ⟨e2.symm, fun _ _ => .inl e6.symm⟩⟩, ⟨rfl, e3⟩, by simp [e1], by simp [e4], by simp [e6], rfl, ha.any⟩
    · right; left
      exact ⟨h0, e5, .inl ⟨rfl, baseLe_false.2 (.inl e2.symm)⟩, ⟨rfl, e3⟩, by simp [e1], by simp [e4], rfl, ha.any⟩
  · have he' : (a.eq b && a.typeId == b.typeId) = false := by simpa using he
    simp only [he', Bool.or_false, Bool.false_eq_true, if_false] at hc ⊢
    obtain ⟨p1, p2, p3, p4, p5⟩ := setToArr_same T a b
    obtain ⟨q1, q2, q3, q4, q5⟩ := setToArr_same T b a
    generalize hu1 : setToArr T a b = u1 at hc p1 p2 p3 p4 p5 ⊢
    generalize hu2 : setToArr T b a = u2 at hc q1 q2 q3 q4 q5 ⊢
    have b1 : Base5 u1 := by unfold Base5; rw [p1]; exact ha.base
    have b2 : Base5 u2 := by unfold Base5; rw [q1]; exact hb.base
    split at hc
    · exact absurd rfl hc
    · rename_i hk
      rw [if_neg hk]
      push Not at hk
      obtain ⟨_, _, hd, hs⟩ := hk
      have hs : u1.set = u2.set := by
        by_contra h
        exact b2.ne.1 (hs h b1.ne.1)
      split at hc
      · rename_i h0
        rw [if_pos h0]
        have hcb : (commonElem strict (elemType T u1) (elemType T u2)).bt ≠ .unknown := by
          intro h
          apply hc
          unfold commonArr
          rw [if_pos h]
          rfl
        obtain ⟨r1, r2, r3, r4, r5, r6⟩ := commonArr_fields T (a := u1) (b := u2) hcb
        obtain ⟨x1, x2, x3, x4, x5, x6, x7⟩ := elemType_fields T u1
        obtain ⟨y1, y2, y3, y4, y5, y6, y7⟩ := elemType_fields T u2
        have sp := commonElem_spec (strict := strict) (a := elemType T u1) (b := elemType T u2)
          (by unfold Base5; rw [x1]; exact b1) (by unfold Base5; rw [y1]; exact b2) (by rw [x5, p4]; exact ha.any) (by rw [y5, q4]; exact hb.any)
          (by rw [x7, y7]) hcb
        have key : IsCommonA u1 u2 (commonArr T u1 u2 (commonElem strict (elemType T u1) (elemType T u2))) := by
          refine ⟨?_, ⟨?_, ?_⟩, ?_, ?_, r6, ?_⟩
          · rw [r1]
            rcases sp.base with ⟨g1, g2⟩ | ⟨g1, g2⟩
            · left
              refine ⟨by rw [g1, x1], ?_⟩
              have := baseLe_false.1 g2.weaken
              rw [x1, y1] at this
              exact baseLe_false.2 this
            · right
              refine ⟨by rw [g1, y1], ?_⟩
              have := baseLe_false.1 g2.weaken
              rw [x1, y1] at this
              exact baseLe_false.2 this
          · rw [r3, sp.set.1, x3]
          · rw [r3, sp.set.2, y3]
          · rw [r2, sp.var, x2, y2]
          · rw [r4, sp.opt, x4, y4]
          · rw [r5, sp.any]
        generalize commonArr T u1 u2 (commonElem strict (elemType T u1) (elemType T u2)) = r at key ⊢
        by_cases s1 : a.dim = 0 ∧ a.set = true ∧ b.dim = 1
        · have s2 : ¬ (b.dim = 0 ∧ b.set = true ∧ a.dim = 1) := by omega
          rw [setToArr_of_ne T s2] at hu2
          have f := setToArr_fields T s1
          rw [hu1] at f
          subst hu2
          right; right; left
          refine ⟨s1.1, s1.2.1, s1.2.2, ⟨?_, ⟨?_, ?_⟩, ?_, ?_, ?_, key.any⟩⟩
          · rcases key.base with ⟨g1, g2⟩ | ⟨g1, g2⟩
            · left; refine ⟨by rw [g1, p1], ?_⟩; rw [baseLe_false] at g2 ⊢; rw [p1] at g2; exact g2
            · right; refine ⟨g1, ?_⟩; rw [baseLe_false] at g2 ⊢; rw [p1] at g2; exact g2
          · rw [key.set.1, f.2.2.1]
          · exact key.set.2
          · rw [key.var, p2]
          · rw [key.opt, p3]
          · rw [key.dim, f.2.2.2.2.2.2]
        · rw [setToArr_of_ne T s1] at hu1
          by_cases s2 : b.dim = 0 ∧ b.set = true ∧ a.dim = 1
          · have f := setToArr_fields T s2
            rw [hu2] at f
            subst hu1
            right; right; right
            refine ⟨s2.1, s2.2.1, s2.2.2, ⟨?_, ⟨?_, ?_⟩, ?_, ?_, ?_, key.any⟩⟩
            · rcases key.base with ⟨g1, g2⟩ | ⟨g1, g2⟩
              · left; refine ⟨g1, ?_⟩; rw [baseLe_false] at g2 ⊢; rw [q1] at g2; exact g2
              · right; refine ⟨by rw [g1, q1], ?_⟩; rw [baseLe_false] at g2 ⊢; rw [q1] at g2; exact g2
            · exact key.set.1
            · rw [key.set.2, f.2.2.1]
            · rw [key.var, q2]
            · rw [key.opt, q3]
            · rw [key.dim]
          · rw [setToArr_of_ne T s2] at hu2
            subst hu1
            subst hu2
            right; left
            exact ⟨h0, hd, key⟩
      · rename_i h0
        rw [if_neg h0]
        have h0 : u1.dim = 0 := not_not.1 h0
        have n1 : ¬ (a.dim = 0 ∧ a.set = true ∧ b.dim = 1) := by
          intro s
          have f := setToArr_fields T s
          rw [hu1] at f
          omega
        have n2 : ¬ (b.dim = 0 ∧ b.set = true ∧ a.dim = 1) := by
          intro s
          have f := setToArr_fields T s
          rw [hu2] at f
          omega
        rw [setToArr_of_ne T n1] at hu1
        rw [setToArr_of_ne T n2] at hu2
        subst hu1
        subst hu2
        left
        exact ⟨h0, by rw [← hd]; exact h0, commonBase_spec ha.base hb.base ha.any hb.any hs hd hc⟩

/-- What the type checker needs when it brings a set and a one-dimensional array together: the set is fixed and not a set of floats. -/
def SetArrOk (a b : Ty) : Prop := a.dim = 0 → a.set = true → b.dim = 1 → a.var = false ∧ a.bt ≠ .float

theorem common_ground {T : Tab} {strict : Bool} {a b : Ty} (ha : Ground a) (hb : Ground b) (hc : (commonType T strict a b).bt ≠ .unknown) :
    Ground (commonType T strict a b) := by
  rcases commonType_spec ha hb hc with ⟨d1, d2, h⟩ | ⟨d1, d2, h⟩ | ⟨d1, d2, d3, h⟩ | ⟨d1, d2, d3, h⟩
  · refine ⟨?_, h.any, fun _ hi => ?_⟩
    · unfold Base5
      rcases h.base with ⟨g, _⟩ | ⟨g, _⟩ <;> rw [g]
      · exact ha.base
      · exact hb.base
    · rw [h.tid]
      split
      · rename_i he
        rcases h.base with ⟨g, _⟩ | ⟨g, _⟩ <;> rw [g] at hi
        · exact ha.enum d1 hi
        · rw [he]; exact hb.enum d2 hi
      · rfl
  all_goals
    refine ⟨?_, h.any, fun h' _ => ?_⟩
    · unfold Base5
      rcases h.base with ⟨g, _⟩ | ⟨g, _⟩ <;> rw [g]
      · exact ha.base
      · exact hb.base
    · have := h.dim
      try simp only at this
      omega

/-- **C17**. The common type of two types, when there is one, is a supertype of both. -/
theorem _root_.MZ.C17_common_upper {T : Tab} {strict : Bool} {a b : Ty} (ha : Ground a) (hb : Ground b)
    (h1 : SetArrOk a b) (h2 : SetArrOk b a) (hc : (commonType T strict a b).bt ≠ .unknown) :
    isSub strict a (commonType T strict a b) = true ∧ isSub strict b (commonType T strict a b) = true := by
  have hg := common_ground ha hb hc
  rw [C17_subtype_iff ha hg, C17_subtype_iff hb hg]
  have hor : ∀ x y z : Bool, z = (x || y) → (x = true → z = true) ∧ (y = true → z = true) := by decide
  rcases commonType_spec ha hb hc with ⟨d1, d2, h⟩ | ⟨d1, d2, h⟩ | ⟨d1, d2, d3, h⟩ | ⟨d1, d2, d3, h⟩
  · have hv := hor _ _ _ h.var
    have ho := hor _ _ _ h.opt
    have ht : ∀ x, x = a.typeId ∨ x = b.typeId → x = (commonType T strict a b).typeId ∨ (commonType T strict a b).typeId = 0 := by
      intro x hx
      rw [h.tid]
      split
      · rename_i he
        rcases hx with hx | hx
        · exact .inl hx
        · exact .inl (by rw [hx, he])
      · exact .inr rfl
    constructor
    · right
      refine ⟨.inl h.dim.symm, ?_, h.set.1.symm, hv.1, ho.1⟩
      unfold BaseLe
      rcases h.base with ⟨g1, g2⟩ | ⟨g1, g2⟩
      · rw [g1]
        exact .inl ⟨rfl, fun _ _ => ht _ (.inl rfl)⟩
      · rw [g1]
        rcases g2 with ⟨g3, _⟩ | g3
        · exact .inl ⟨g3, fun _ _ => ht _ (.inl rfl)⟩
        · exact .inr g3
    · right
      refine ⟨.inl (by rw [h.dim, d1, d2]), ?_, h.set.2.symm, hv.2, ho.2⟩
      unfold BaseLe
      rcases h.base with ⟨g1, g2⟩ | ⟨g1, g2⟩
      · rw [g1]
        rcases g2 with ⟨g3, _⟩ | g3
        · exact .inl ⟨g3, fun _ _ => ht _ (.inr rfl)⟩
        · exact .inr g3
      · rw [g1]
        exact .inl ⟨rfl, fun _ _ => ht _ (.inr rfl)⟩
  all_goals
    have hv := hor _ _ _ h.var
    have ho := hor _ _ _ h.opt
    have hdim := h.dim
    have hset := h.set
    try simp only at hv ho hdim hset
    have hbase : BaseLe false a (commonType T strict a b) ∧ BaseLe false b (commonType T strict a b) := by
      have := h.base
      simp only [baseLe_false] at this ⊢
      rcases this with ⟨g1, g2⟩ | ⟨g1, g2⟩ <;> rw [g1] <;> exact ⟨by tauto, by tauto⟩
    generalize commonType T strict a b = c at *
    have lift : ∀ x : Ty, x.dim ≠ 0 → BaseLe false x c → BaseLe strict x c := by
      intro x hx hb
      rcases hb with ⟨e, _⟩ | e
      · exact .inl ⟨e, fun _ h => absurd h hx⟩
      · exact .inr e
  · exact ⟨.inr ⟨.inl hdim.symm, lift _ d1 hbase.1, hset.1.symm, hv.1, ho.1⟩,
      .inr ⟨.inl (by rw [hdim, d2]), lift _ (d2 ▸ d1) hbase.2, hset.2.symm, hv.2, ho.2⟩⟩
  · obtain ⟨k1, k2⟩ := h1 d1 d2 d3
    exact ⟨.inl ⟨d1, d2, k1, k2, by omega, hset.1, hbase.1, ho.1⟩,
      .inr ⟨.inl (by omega), lift _ (by omega) hbase.2, hset.2.symm, hv.2, ho.2⟩⟩
  · obtain ⟨k1, k2⟩ := h2 d1 d2 d3
    exact ⟨.inr ⟨.inl hdim.symm, lift _ (by omega) hbase.1, hset.1.symm, hv.1, ho.1⟩,
      .inl ⟨d1, d2, k1, k2, by omega, hset.2, hbase.2, ho.2⟩⟩

/-- **C17** (deviation). A variable set and an array have a common type that is no supertype of the set. -/
theorem _root_.MZ.C17_common_upper_fails (T : Tab) : ∃ a b : Ty, Ground a ∧ Ground b ∧ (commonType T true a b).bt ≠ .unknown ∧
    isSub true a (commonType T true a b) = false := by
  refine ⟨⟨.int, true, true, false, false, false, 0, 0⟩, ⟨.int, false, false, false, false, false, 0, 1⟩, ⟨?_, rfl, ?_⟩, ⟨?_, rfl, ?_⟩, ?_, ?_⟩
  · exact .inr (.inl rfl)
  · intros; rfl
  · exact .inr (.inl rfl)
  · intros; rfl
  · intro h; cases h
  · rfl

/-- **C17**. The common type is the most specific one: it is a subtype of every supertype of both types. Excluded are a boolean with a
member of an enumeration (the common type is `int`, although the enumeration itself is a supertype of `bool`, `C17_bool_enum`), and
a set with an array. -/
theorem _root_.MZ.C17_common_least {T : Tab} {strict : Bool} {a b u : Ty} (ha : Ground a) (hb : Ground b) (hu : Ground u)
    (hd : a.dim = b.dim) (hbe : a.dim = 0 → a.bt = b.bt ∨ (a.typeId = 0 ∧ b.typeId = 0))
    (hc : (commonType T strict a b).bt ≠ .unknown) (h1 : isSub strict a u = true) (h2 : isSub strict b u = true) :
    isSub strict (commonType T strict a b) u = true := by
  have hg := common_ground ha hb hc
  rw [C17_subtype_iff ha hu] at h1
  rw [C17_subtype_iff hb hu] at h2
  rw [C17_subtype_iff hg hu]
  have hor : ∀ x y z w : Bool, z = (x || y) → (x = true → w = true) → (y = true → w = true) → (z = true → w = true) := by decide
  have hor' : ∀ x y z : Bool, z = (x || y) → x = false → y = false → z = false := by decide
  rcases commonType_spec ha hb hc with ⟨d1, d2, h⟩ | ⟨d1, d2, h⟩ | ⟨d1, d2, d3, h⟩ | ⟨d1, d2, d3, h⟩
  · rcases h1 with ⟨p1, p2, p3, p4, p5, p6, p7, p8⟩ | ⟨p1, p2, p3, p4, p5⟩
    · rcases h2 with ⟨q1, q2, q3, q4, q5, q6, q7, q8⟩ | ⟨q1, q2, q3, q4, q5⟩
      · left
        refine ⟨by rw [h.dim]; exact d1, by rw [h.set.1]; exact p2, hor' _ _ _ h.var p3 q3, ?_, p5, p6, ?_, hor _ _ _ _ h.opt p8 q8⟩
        · rcases h.base with ⟨g, _⟩ | ⟨g, _⟩ <;> rw [g] <;> assumption
        · rw [baseLe_false] at p7 q7 ⊢
          rcases h.base with ⟨g, _⟩ | ⟨g, _⟩ <;> rw [g] <;> assumption
      · exact absurd q1 (by omega)
    · rcases h2 with ⟨q1, q2, q3, q4, q5, q6, q7, q8⟩ | ⟨q1, q2, q3, q4, q5⟩
      · exact absurd p1 (by omega)
      · right
        refine ⟨.inl (by rw [h.dim]; omega), ?_, by rw [h.set.1]; exact p3, hor _ _ _ _ h.var p4 q4, hor _ _ _ _ h.opt p5 q5⟩
        have hud : u.dim = 0 := by omega
        unfold BaseLe at p2 q2 ⊢
        by_cases ht : a.typeId = b.typeId
        · rw [h.tid, if_pos ht, h.dim]
          rcases h.base with ⟨g, _⟩ | ⟨g, _⟩ <;> rw [g]
          · exact p2
          · rw [ht, hd]; exact q2
        · rw [h.tid, if_neg ht, h.dim]
          have hu0 : strict = true → u.typeId = 0 := by
            intro hs
            by_contra hu0
            have hui : u.bt = .int := by
              by_contra hni
              exact hu0 (hu.enum hud hni)
            have hab : a.bt = b.bt := by
              rcases hbe d1 with h' | ⟨h', h''⟩
              · exact h'
              · exact absurd (h'.trans h''.symm) ht
            have hne : a.bt = .int := by
              by_contra hx
              exact ht ((ha.enum d1 hx).trans (hb.enum d2 (hab ▸ hx)).symm)
            have hnb : b.bt = .int := hab ▸ hne
            have k1 := p2.resolve_right (by rw [hne, hui]; decide)
            have k2 := q2.resolve_right (by rw [hnb, hui]; decide)
            have := k1.2 hs d1
            have := k2.2 hs d2
            omega
          rcases h.base with ⟨g, _⟩ | ⟨g, _⟩ <;> rw [g]
          · rcases p2 with ⟨p2, _⟩ | p2
            · exact .inl ⟨p2, fun hs _ => .inr (hu0 hs)⟩
            · exact .inr p2
          · rcases q2 with ⟨q2, _⟩ | q2
            · exact .inl ⟨q2, fun hs _ => .inr (hu0 hs)⟩
            · exact .inr q2
  · have p := h1.resolve_left (fun h' => d1 h'.1)
    have q := h2.resolve_left (fun h' => d1 (d2 ▸ h'.1))
    obtain ⟨p1, p2, p3, p4, p5⟩ := p
    obtain ⟨q1, q2, q3, q4, q5⟩ := q
    right
    refine ⟨by rw [h.dim]; exact p1, ?_, by rw [h.set.1]; exact p3, hor _ _ _ _ h.var p4 q4, hor _ _ _ _ h.opt p5 q5⟩
    have hcd : (commonType T strict a b).dim ≠ 0 := by rw [h.dim]; exact d1
    unfold BaseLe at p2 q2 ⊢
    rcases h.base with ⟨g, _⟩ | ⟨g, _⟩ <;> rw [g]
    · rcases p2 with ⟨p2, _⟩ | p2
      · exact .inl ⟨p2, fun _ h' => absurd h' hcd⟩
      · exact .inr p2
    · rcases q2 with ⟨q2, _⟩ | q2
      · exact .inl ⟨q2, fun _ h' => absurd h' hcd⟩
      · exact .inr q2
  · omega
  · omega

/-- **C17**. Without strict enumerations, two types of the same dimension that have any common supertype have a common type, unless
that would be a variable optional set. -/
theorem _root_.MZ.C17_common_exists {T : Tab} {a b u : Ty} (ha : Ground a) (hb : Ground b) (hu : Ground u) (hd : a.dim = b.dim)
    (h1 : isSub false a u = true) (h2 : isSub false b u = true)
    (hvos : ((a.var || b.var) && (a.opt || b.opt) && a.set) = false) : (commonType T false a b).bt ≠ .unknown := by
  rw [C17_subtype_iff ha hu] at h1
  rw [C17_subtype_iff hb hu] at h2
  have hset : a.set = b.set := by
    rcases h1 with ⟨p1, p2, p3, p4, p5, p6, p7, p8⟩ | ⟨p1, p2, p3, p4, p5⟩ <;>
      rcases h2 with ⟨q1, q2, q3, q4, q5, q6, q7, q8⟩ | ⟨q1, q2, q3, q4, q5⟩
    · rw [p2, q2]
    · omega
    · omega
    · rw [p3, q3]
  have hle : BaseLe false a u ∧ BaseLe false b u := by
    constructor
    · rcases h1 with ⟨p1, p2, p3, p4, p5, p6, p7, p8⟩ | ⟨p1, p2, p3, p4, p5⟩ <;> assumption
    · rcases h2 with ⟨q1, q2, q3, q4, q5, q6, q7, q8⟩ | ⟨q1, q2, q3, q4, q5⟩ <;> assumption
  have hcmp : ∀ x y : Ty, x.bt = a.bt → y.bt = b.bt → BaseLe false x y ∨ BaseLe false y x := by
    intro x y hx hy
    rw [baseLe_false, baseLe_false, hx, hy]
    rw [baseLe_false, baseLe_false] at hle
    rcases hle with ⟨g1 | ⟨g1, g1'⟩ | ⟨g1, g1'⟩ | ⟨g1, g1'⟩, g2 | ⟨g2, g2'⟩ | ⟨g2, g2'⟩ | ⟨g2, g2'⟩⟩ <;> simp_all
  have base : ∀ x y : Ty, x.bt = a.bt → y.bt = b.bt → x.var = a.var → y.var = b.var → x.opt = a.opt → y.opt = b.opt → x.set = a.set →
      y.set = b.set → (commonBase false x y).bt ≠ .unknown := by
    intro x y hx hy hv1 hv2 ho1 ho2 hs1 hs2
    have hxb : Base5 x := by unfold Base5; rw [hx]; exact ha.base
    have hyb : Base5 y := by unfold Base5; rw [hy]; exact hb.base
    have hfin : ∀ c, c = x ∨ c = y → (finish x y c).bt ≠ .unknown := by
      intro c hc
      unfold finish
      rw [if_neg]
      · show c.bt ≠ .unknown
        rcases hc with rfl | rfl
        · exact hxb.ne.2.2
        · exact hyb.ne.2.2
      · show ¬ (((if x.var ≠ y.var then true else c.var) && (if x.opt ≠ y.opt then true else c.opt) && c.set) = true)
        have k1 : ∀ x y : Bool, (if x ≠ y then true else x) = (x || y) := by decide
        have k2 : ∀ x y : Bool, (if x ≠ y then true else y) = (x || y) := by decide
        rcases hc with rfl | rfl
        · rw [k1, k1, hv1, hv2, ho1, ho2, hs1, hvos]; decide
        · rw [k2, k2, hv1, hv2, ho1, ho2, hs2, ← hset, hvos]; decide
    unfold commonBase
    by_cases g1 : btSub false y x = true
    · rw [if_pos g1]; exact hfin _ (.inl rfl)
    · rw [if_neg g1]
      by_cases g2 : btSub false x y = true
      · rw [if_pos g2]; exact hfin _ (.inr rfl)
      · rw [btSub_iff hyb] at g1
        rw [btSub_iff hxb] at g2
        exact absurd (hcmp x y hx hy) (by tauto)
  unfold commonType
  rw [eq_bot ha.base, eq_bot hb.base]
  by_cases he : a.eq b && a.typeId == b.typeId
  · simp only [he, Bool.true_or, if_true]
    exact ha.base.ne.2.2
  · have he' : (a.eq b && a.typeId == b.typeId) = false := by simpa using he
    have n1 : ¬ (a.dim = 0 ∧ a.set = true ∧ b.dim = 1) := by omega
    have n2 : ¬ (b.dim = 0 ∧ b.set = true ∧ a.dim = 1) := by omega
    simp only [he', Bool.or_false, Bool.false_eq_true, if_false, setToArr_of_ne T n1, setToArr_of_ne T n2]
    rw [if_neg (by simp [ha.base.ne, hb.base.ne, hd, hset])]
    split
    · have hel : (commonElem false (elemType T a) (elemType T b)).bt ≠ .unknown := by
        obtain ⟨x1, x2, x3, x4, x5, x6, x7⟩ := elemType_fields T a
        obtain ⟨y1, y2, y3, y4, y5, y6, y7⟩ := elemType_fields T b
        have b1 : Base5 (elemType T a) := by unfold Base5; rw [x1]; exact ha.base
        have b2 : Base5 (elemType T b) := by unfold Base5; rw [y1]; exact hb.base
        unfold commonElem
        rw [eq_bot b1, eq_bot b2]
        simp only [Bool.or_false, Bool.false_eq_true, if_false]
        split
        · exact b1.ne.2.2
        · rw [if_neg (by simp [b1.ne, b2.ne, x3, y3, hset])]
          exact base _ _ x1 y1 x2 y2 x4 y4 x3 y3
      rw [(commonArr_fields T hel).1]
      exact hel
    · exact base _ _ rfl rfl rfl rfl rfl rfl rfl rfl

end Types
end MZ
