import Verif.Bounds.Lemmas
import Verif.Linear.FlattenProps
/-!
# Soundness of the steps of the bounds computation
-/
namespace MZ
namespace Bounds

/-- The bounds are proper and enclose every value in the set. -/
def Good (b : B) (S : Int → Prop) : Prop :=
  ∃ l u, b.1.denote = some l ∧ b.2.denote = some u ∧ l ≠ .posInf ∧ u ≠ .negInf ∧
    ∀ v, S v → l ≤ .fin v ∧ .fin v ≤ u

theorem good_mono {b : B} {S T : Int → Prop} (h : Good b S) (hs : ∀ v, T v → S v) : Good b T := by
  obtain ⟨l, u, h1, h2, h3, h4, h5⟩ := h
  exact ⟨l, u, h1, h2, h3, h4, fun v hv => h5 v (hs v hv)⟩

theorem good_fin {a b : Int} {S : Int → Prop} (h : ∀ v, S v → a ≤ v ∧ v ≤ b) :
    Good (.fin a, .fin b) S :=
  ⟨.fin a, .fin b, rfl, rfl, by simp, by simp, fun v hv => by simpa using h v hv⟩

theorem denote_ofExt (e : Ext) : (ofExt e).denote = some e := by cases e <;> rfl

theorem good_hull {D : List Range} (hn : Normal D) (hne : D.isEmpty = false) {S : Int → Prop}
    (h : ∀ v, S v → Mem v D) : Good (hull D) S := by
  cases D with
  | nil => simp at hne
  | cons r l =>
    refine ⟨r.lo, ((r :: l).getLast (by simp)).hi, denote_ofExt _, denote_ofExt _,
      (hn.1 r (by simp)).2.1, (hn.1 _ (List.getLast_mem _)).2.2, fun v hv => ?_⟩
    obtain ⟨a, b, ha, hb, h1, h2⟩ := Linear.hull_of_mem hn (h v hv)
    rw [IntSet.max?, List.getLast?_eq_some_getLast (by simp)] at hb
    simp only [IntSet.min?, List.head?_cons, Option.map_some, Option.some.injEq] at ha hb
    rw [← ha] at h1; rw [← hb] at h2
    exact ⟨h1, h2⟩

theorem finite_fin {x : IntVal} (h : x.isFinite = true) : x = .fin x.v := by
  obtain ⟨v, i⟩ := x
  simp only [IntVal.isFinite, Bool.not_eq_true'] at h
  subst h; rfl

theorem finite4_cases {b0 b1 : B} (h : finite4 b0 b1 = true) :
    ∃ a b c d, b0 = (.fin a, .fin b) ∧ b1 = (.fin c, .fin d) := by
  simp only [finite4, Bool.and_eq_true] at h
  obtain ⟨⟨⟨h1, h2⟩, h3⟩, h4⟩ := h
  exact ⟨b0.1.v, b0.2.v, b1.1.v, b1.2.v, by rw [← finite_fin h3, ← finite_fin h4],
    by rw [← finite_fin h1, ← finite_fin h2]⟩

theorem good_fin_iff {a b : Int} {S : Int → Prop} :
    Good (.fin a, .fin b) S ↔ ∀ v, S v → a ≤ v ∧ v ≤ b := by
  refine ⟨fun ⟨l, u, h1, h2, _, _, h⟩ v hv => ?_, good_fin⟩
  have e1 : l = .fin a := (Option.some.inj h1).symm
  have e2 : u = .fin b := (Option.some.inj h2).symm
  have := h v hv
  rw [e1, e2] at this
  simpa using this

theorem add_fin {a c : Int} {r : IntVal} (h : IntVal.add (.fin a) (.fin c) = .ok r) :
    r = .fin (a + c) := (Linear.add_ok_fin h).2.1

theorem sub_fin {a c : Int} {r : IntVal} (h : IntVal.sub (.fin a) (.fin c) = .ok r) :
    r = .fin (a - c) := by
  have e : IntVal.sub (.fin a) (.fin c) = IntVal.fin <$> safeMinus a c := rfl
  rw [e] at h
  cases hp : safeMinus a c with
  | ok z => rw [hp] at h; simp only [Res.ok_map, Res.ok.injEq] at h; rw [← h, (safeMinus_ok hp).1]
  | err => rw [hp] at h; simp at h
  | ub => rw [hp] at h; simp at h

theorem mul_fin {a c : Int} {r : IntVal} (h : IntVal.mul (.fin a) (.fin c) = .ok r) :
    r = .fin (a * c) := by
  have e : IntVal.mul (.fin a) (.fin c) = IntVal.fin <$> safeMult a c := rfl
  rw [e] at h
  cases hp : safeMult a c with
  | ok z => rw [hp] at h; simp only [Res.ok_map, Res.ok.injEq] at h; rw [← h, (safeMult_ok hp).1]
  | err => rw [hp] at h; simp at h
  | ub => rw [hp] at h; simp at h

theorem neg_fin {a : Int} {r : IntVal} (h : IntVal.neg (.fin a) = .ok r) : r = .fin (-a) := by
  unfold IntVal.neg at h
  rw [Res.bind_eq_ok] at h
  obtain ⟨z, h1, h⟩ := h
  injection h with h
  rw [← h, (safeMinus_ok h1).1, show (0 : Int) - (IntVal.fin a).v = -a by simp [IntVal.fin]]
  rfl

theorem div_fin {a c : Int} {r : IntVal} (h : IntVal.div (.fin a) (.fin c) = .ok r) :
    c ≠ 0 ∧ r = .fin (a.tdiv c) := by
  by_cases h1 : c = 1 ∨ c = -1
  · have e : IntVal.div (.fin a) (.fin c) = IntVal.fin <$> safeMult a c := by
      simp only [IntVal.div, IntVal.fin, IntVal.isFinite]
      rcases h1 with h | h <;> subst h <;> simp <;> rfl
    rw [e] at h
    cases hp : safeMult a c with
    | ok z =>
      rw [hp] at h; simp only [Res.ok_map, Res.ok.injEq] at h
      rw [← h, (safeMult_ok hp).1]
      rcases h1 with rfl | rfl <;> simp
    | err => rw [hp] at h; simp at h
    | ub => rw [hp] at h; simp at h
  · have e : IntVal.div (.fin a) (.fin c) = IntVal.fin <$> safeDiv a c := by
      simp only [IntVal.div, IntVal.fin, IntVal.isFinite]
      have h2 : (c == 1 || c == -1) = false := by
        simp; constructor <;> (intro h; exact h1 (by omega))
      simp [h2]
    rw [e] at h
    unfold safeDiv at h
    split at h
    · simp at h
    · rename_i h0
      refine ⟨h0, ?_⟩
      split at h
      · rename_i ha; subst ha; simp only [Res.ok_map, Res.ok.injEq] at h; rw [← h]; simp
      · split at h
        · simp at h
        · cases hp : ll (a.tdiv c) with
          | ok z =>
            rw [hp] at h; simp only [Res.ok_map, Res.ok.injEq] at h
            rw [← h, (ll_eq_ok hp).1]
          | err => rw [hp] at h; simp at h
          | ub => rw [hp] at h; simp at h

theorem mulBounds_good {b0 b1 r : B} (hf : finite4 b0 b1 = true) (h : mulBounds b0 b1 = .ok r)
    {S T : Int → Prop} (h0 : Good b0 S) (h1 : Good b1 T) {U : Int → Prop}
    (hu : ∀ v, U v → ∃ x y, S x ∧ T y ∧ v = x * y) : Good r U := by
  obtain ⟨a, b, c, d, rfl, rfl⟩ := finite4_cases hf
  unfold mulBounds at h
  simp only [Res.bind_eq_ok] at h
  obtain ⟨x0, e0, x1, e1, x2, e2, x3, e3, h⟩ := h
  injection h with h
  rw [mul_fin e0, mul_fin e1, mul_fin e2, mul_fin e3] at h
  unfold minmax4 at h
  simp only [min_fin, max_fin] at h
  rw [good_fin_iff] at h0 h1
  rw [← h, good_fin_iff]
  intro v hv
  obtain ⟨x, y, hx, hy, rfl⟩ := hu v hv
  exact mul_corners (h0 x hx).1 (h0 x hx).2 (h1 y hy).1 (h1 y hy).2

theorem divBounds_good {b0 b1 r : B} (hf : finite4 b0 b1 = true)
    (h : cornerBounds IntVal.div b0 b1 = .ok r)
    (hz0 : b0.1 ≠ .fin 0 ∧ b0.2 ≠ .fin 0) (hz1 : 0 < b1.1.v ∨ b1.2.v < 0)
    {S T : Int → Prop} (h0 : Good b0 S) (h1 : Good b1 T) {U : Int → Prop}
    (hu : ∀ v, U v → ∃ x y, S x ∧ T y ∧ v = x.tdiv y) : Good r U := by
  obtain ⟨a, b, c, d, rfl, rfl⟩ := finite4_cases hf
  have na : a ≠ 0 := fun e => hz0.1 (by rw [e])
  have nb : b ≠ 0 := fun e => hz0.2 (by rw [e])
  dsimp only [IntVal.fin] at hz1
  rw [good_fin_iff] at h0 h1
  have en0 : noZero (.fin a, .fin b) = (.fin a, .fin b) := by
    simp [noZero, IntVal.eqb, IntVal.fin, na, nb]
  by_cases hT : ∃ y, T y
  · obtain ⟨y0, hy0⟩ := hT
    have hy0' := h1 y0 hy0
    have en1 : noZero (.fin c, .fin d) = (.fin c, .fin d) := by
      have : c ≠ 0 := by omega
      have : d ≠ 0 := by omega
      simp [noZero, IntVal.eqb, IntVal.fin, *]
    unfold cornerBounds at h
    simp only [Res.bind_eq_ok, en0, en1] at h
    obtain ⟨x0, e0, x1, e1, x2, e2, x3, e3, h⟩ := h
    injection h with h
    rw [(div_fin e0).2, (div_fin e1).2, (div_fin e2).2, (div_fin e3).2] at h
    unfold minmax4 at h
    simp only [min_fin, max_fin] at h
    rw [← h, good_fin_iff]
    intro v hv
    obtain ⟨x, y, hx, hy, rfl⟩ := hu v hv
    exact tdiv_corners (h0 x hx).1 (h0 x hx).2 (h1 y hy).1 (h1 y hy).2 hz1
  · have hU : ∀ v, ¬ U v := fun v hv => by
      obtain ⟨x, y, _, hy, _⟩ := hu v hv; exact hT ⟨y, hy⟩
    unfold cornerBounds at h
    simp only [Res.bind_eq_ok] at h
    obtain ⟨x0, e0, x1, e1, x2, e2, x3, e3, h⟩ := h
    injection h with h
    have f : ∀ z : IntVal × IntVal, z = (.fin a, .fin b) ∨ z = (.fin c, .fin d) →
        ∃ p q, noZero z = (.fin p, .fin q) := by
      rintro z (rfl | rfl) <;> simp only [noZero] <;> split <;> split <;> exact ⟨_, _, rfl⟩
    obtain ⟨p, q, hp⟩ := f _ (Or.inl rfl)
    obtain ⟨p', q', hp'⟩ := f _ (Or.inr rfl)
    simp only [hp, hp'] at e0 e1 e2 e3
    rw [(div_fin e0).2, (div_fin e1).2, (div_fin e2).2, (div_fin e3).2] at h
    unfold minmax4 at h
    simp only [min_fin, max_fin] at h
    rw [← h, good_fin_iff]
    exact fun v hv => absurd hv (hU v)

/-! ### steps on the stack -/

theorem pop_cons (b : B) (r : List B) (v : Bool) : pop ⟨b :: r, v⟩ = .ok (b, ⟨r, v⟩) := rfl

theorem vBinOp_sound {op : Op} {b0 b1 : B} {r : List B} {s' : St}
    (h : vBinOp op ⟨b1 :: b0 :: r, true⟩ = .ok s') (hv : s'.valid = true)
    (hop : op ≠ .mod)
    (hdiv : op = .idiv → (b0.1 ≠ .fin 0 ∧ b0.2 ≠ .fin 0) ∧ (0 < b1.1.v ∨ b1.2.v < 0))
    {S T : Int → Prop} (h0 : Good b0 S) (h1 : Good b1 T) :
    ∃ b, s' = ⟨b :: r, true⟩ ∧ Good b (fun v => ∃ x y, S x ∧ T y ∧ op.eval x y = some v) := by
  unfold vBinOp at h
  simp only [pop_cons, Res.ok_bind] at h
  by_cases hf : (!finite4 b0 b1) = true
  · rw [if_pos hf] at h; injection h with h; rw [← h] at hv; simp [giveUp] at hv
  rw [if_neg hf] at h
  have hf' : finite4 b0 b1 = true := by simpa using hf
  rw [Res.bind_eq_ok] at h
  obtain ⟨o, ho, h⟩ := h
  injection h with h
  cases o with
  | none => rw [← h] at hv; simp [pushOpt, giveUp] at hv
  | some b =>
    refine ⟨b, by rw [← h]; rfl, ?_⟩
    cases op with
    | plus =>
      obtain ⟨a, b', c, d, rfl, rfl⟩ := finite4_cases hf'
      simp only [opBounds, Res.bind_eq_ok, Res.ok.injEq, Option.some.injEq] at ho
      obtain ⟨l, hl, u, hu, rfl⟩ := ho
      rw [add_fin hl, add_fin hu, good_fin_iff]
      rw [good_fin_iff] at h0 h1
      rintro v ⟨x, y, hx, hy, he⟩
      simp only [Op.eval, Option.some.injEq] at he
      have := h0 x hx; have := h1 y hy; omega
    | minus =>
      obtain ⟨a, b', c, d, rfl, rfl⟩ := finite4_cases hf'
      simp only [opBounds, Res.bind_eq_ok, Res.ok.injEq, Option.some.injEq] at ho
      obtain ⟨l, hl, u, hu, rfl⟩ := ho
      rw [sub_fin hl, sub_fin hu, good_fin_iff]
      rw [good_fin_iff] at h0 h1
      rintro v ⟨x, y, hx, hy, he⟩
      simp only [Op.eval, Option.some.injEq] at he
      have := h0 x hx; have := h1 y hy; omega
    | mult =>
      simp only [opBounds] at ho
      cases hm : mulBounds b0 b1 with
      | ok z =>
        rw [hm] at ho; simp only [Res.ok_map, Res.ok.injEq, Option.some.injEq] at ho
        subst ho
        refine mulBounds_good hf' hm h0 h1 ?_
        rintro v ⟨x, y, hx, hy, he⟩
        exact ⟨x, y, hx, hy, (Option.some.inj he).symm⟩
      | err => rw [hm] at ho; simp at ho
      | ub => rw [hm] at ho; simp at ho
    | idiv =>
      simp only [opBounds] at ho
      cases hm : cornerBounds IntVal.div b0 b1 with
      | ok z =>
        rw [hm] at ho; simp only [Res.ok_map, Res.ok.injEq, Option.some.injEq] at ho
        subst ho
        refine divBounds_good hf' hm (hdiv rfl).1 (hdiv rfl).2 h0 h1 ?_
        rintro v ⟨x, y, hx, hy, he⟩
        simp only [Op.eval] at he
        split at he
        · simp at he
        · exact ⟨x, y, hx, hy, (Option.some.inj he).symm⟩
      | err => rw [hm] at ho; simp at ho
      | ub => rw [hm] at ho; simp at ho
    | mod => exact absurd rfl hop
    | pow => simp [opBounds] at ho

theorem neg_denote {x r : IntVal} {e : Ext} (hx : x.denote = some e) (h : IntVal.neg x = .ok r) :
    r.denote = some e.neg := by
  rcases denote_cases hx with ⟨rfl, rfl⟩ | ⟨rfl, rfl⟩ | ⟨a, rfl, rfl⟩
  · have : IntVal.neg ⟨1, true⟩ = .ok ⟨-1, true⟩ := by decide
    rw [this] at h; injection h with h; rw [← h]; rfl
  · have : IntVal.neg ⟨-1, true⟩ = .ok ⟨1, true⟩ := by decide
    rw [this] at h; injection h with h; rw [← h]; rfl
  · rw [neg_fin h]; rfl

theorem le_neg {l : Ext} {v : Int} : l ≤ .fin v → .fin (-v) ≤ l.neg := by
  cases l <;> simp [Ext.neg]
theorem neg_le {u : Ext} {v : Int} : .fin v ≤ u → u.neg ≤ .fin (-v) := by
  cases u <;> simp [Ext.neg]

theorem vNeg_sound {b0 : B} {r : List B} {s' : St} (h : vNeg ⟨b0 :: r, true⟩ = .ok s')
    {S : Int → Prop} (h0 : Good b0 S) :
    ∃ b, s' = ⟨b :: r, true⟩ ∧ Good b (fun v => ∃ x, S x ∧ v = -x) := by
  unfold vNeg at h
  simp only [pop_cons, Res.ok_bind, Res.bind_eq_ok] at h
  obtain ⟨l', hl, u', hu, h⟩ := h
  injection h with h
  refine ⟨(u', l'), by rw [← h]; rfl, ?_⟩
  obtain ⟨l, u, d1, d2, n1, n2, hs⟩ := h0
  refine ⟨u.neg, l.neg, neg_denote d2 hu, neg_denote d1 hl, ?_, ?_, ?_⟩
  · cases u <;> simp [Ext.neg] at n2 ⊢
  · cases l <;> simp [Ext.neg] at n1 ⊢
  · rintro v ⟨x, hx, rfl⟩
    exact ⟨neg_le (hs x hx).2, le_neg (hs x hx).1⟩

theorem vTimes_sound {b0 b1 : B} {r : List B} {s' : St}
    (h : vTimes ⟨b1 :: b0 :: r, true⟩ = .ok s') (hv : s'.valid = true)
    {S T : Int → Prop} (h0 : Good b0 S) (h1 : Good b1 T) :
    ∃ b, s' = ⟨b :: r, true⟩ ∧ Good b (fun v => ∃ x y, S x ∧ T y ∧ v = x * y) := by
  unfold vTimes at h
  simp only [pop_cons, Res.ok_bind] at h
  by_cases hf : (!finite4 b0 b1) = true
  · rw [if_pos hf] at h; injection h with h; rw [← h] at hv; simp [giveUp] at hv
  rw [if_neg hf] at h
  rw [Res.bind_eq_ok] at h
  obtain ⟨b, hm, h⟩ := h
  injection h with h
  exact ⟨b, by rw [← h]; rfl, mulBounds_good (by simpa using hf) hm h0 h1 (fun v hv => hv)⟩

theorem vBool2Int_sound {b0 : B} {r : List B} {s' : St} (h : vBool2Int ⟨b0 :: r, true⟩ = .ok s')
    {S : Int → Prop} (h0 : Good b0 S) (h01 : ∀ v, S v → v = 0 ∨ v = 1) :
    ∃ b, s' = ⟨b :: r, true⟩ ∧ Good b S := by
  unfold vBool2Int at h
  simp only [pop_cons, Res.ok_bind] at h
  injection h with h
  refine ⟨_, by rw [← h]; rfl, ?_⟩
  obtain ⟨l, u, d1, d2, n1, n2, hs⟩ := h0
  obtain ⟨_, M, _, hM, _, _, _, hM1, _, _⟩ := C03_min_max (Linear.fin_denote 0) d1
  obtain ⟨m, _, hm, _, hm1, _⟩ := C03_min_max (Linear.fin_denote 1) d2
  refine ⟨M, m, hM, hm, ?_, ?_, ?_⟩
  · rcases hM1 with rfl | rfl <;> simp [n1]
  · rcases hm1 with rfl | rfl <;> simp [n2]
  · intro v hv
    have := hs v hv
    constructor
    · rcases hM1 with rfl | rfl
      · have := h01 v hv; simp; omega
      · exact this.1
    · rcases hm1 with rfl | rfl
      · have := h01 v hv; simp; omega
      · exact this.2

theorem lt_ext {x y : IntVal} {e f : Ext} (he : x.denote = some e) (hf : y.denote = some f) :
    IntVal.lt x y = true ↔ e < f := by
  rw [(C03_compare he hf).2.1, lt_iff_le_and_ne]; rfl

theorem vAbs_sound {b0 : B} {r : List B} {s' : St} (h : vAbs ⟨b0 :: r, true⟩ = .ok s')
    {S : Int → Prop} (h0 : Good b0 S) :
    ∃ b, s' = ⟨b :: r, true⟩ ∧ Good b (fun v => ∃ x, S x ∧ v = if x < 0 then -x else x) := by
  obtain ⟨l, u, d1, d2, n1, n2, hs⟩ := h0
  unfold vAbs at h
  simp only [pop_cons, Res.ok_bind] at h
  have hl0 := lt_ext d1 (Linear.fin_denote 0)
  have hu0 := lt_ext d2 (Linear.fin_denote 0)
  by_cases c1 : IntVal.lt b0.1 (.fin 0) = true
  · rw [if_pos c1] at h
    by_cases c2 : IntVal.lt b0.2 (.fin 0) = true
    · rw [if_pos c2] at h
      simp only [Res.bind_eq_ok] at h
      obtain ⟨a, ha, b, hb, h⟩ := h
      injection h with h
      refine ⟨_, by rw [← h]; rfl, u.neg, l.neg, neg_denote d2 ha, neg_denote d1 hb, ?_, ?_, ?_⟩
      · cases u <;> simp [Ext.neg] at n2 ⊢
      · cases l <;> simp [Ext.neg] at n1 ⊢
      · rintro v ⟨x, hx, rfl⟩
        have hxs := hs x hx
        have : Ext.fin x < .fin 0 := lt_of_le_of_lt hxs.2 (hu0.1 c2)
        rw [Ext.fin_lt_fin] at this
        rw [if_pos this]
        exact ⟨neg_le hxs.2, le_neg hxs.1⟩
    · rw [if_neg c2] at h
      simp only [Res.bind_eq_ok] at h
      obtain ⟨a, ha, h⟩ := h
      injection h with h
      obtain ⟨_, M, _, hM, _, _, _, hM1, hM2, hM3⟩ := C03_min_max (neg_denote d1 ha) d2
      refine ⟨_, by rw [← h]; rfl, .fin 0, M, rfl, hM, by simp, ?_, ?_⟩
      · rcases hM1 with rfl | rfl
        · cases l <;> simp [Ext.neg] at n1 ⊢
        · exact n2
      · rintro v ⟨x, hx, rfl⟩
        have hxs := hs x hx
        split
        · rename_i hx0
          refine ⟨by simp; omega, le_trans (le_neg hxs.1) hM2⟩
        · rename_i hx0
          exact ⟨by simp; omega, le_trans hxs.2 hM3⟩
  · rw [if_neg c1] at h
    injection h with h
    refine ⟨_, by rw [← h], l, u, d1, d2, n1, n2, ?_⟩
    rintro v ⟨x, hx, rfl⟩
    have hxs := hs x hx
    have h2 : ¬ (l < .fin 0) := fun hh => c1 (hl0.2 hh)
    rw [not_lt] at h2
    have := le_trans h2 hxs.1
    have h3 : l ≤ .fin x := hxs.1
    have hx0 : 0 ≤ x := by
      rcases lt_or_ge x 0 with hneg | hpos
      · exfalso
        have h4 : Ext.fin 0 ≤ .fin x := this
        rw [Ext.fin_le_fin] at h4; omega
      · exact hpos
    rw [if_neg (by omega)]
    exact hxs

theorem join_good {a b : B} {S T : Int → Prop} (ha : ∃ l u, a.1.denote = some l ∧ a.2.denote = some u ∧
      ∀ v, S v → l ≤ .fin v ∧ .fin v ≤ u) (hb : Good b T) :
    Good (join a b) (fun v => S v ∨ T v) := by
  obtain ⟨l, u, d1, d2, hs⟩ := ha
  obtain ⟨l', u', d1', d2', n1, n2, hs'⟩ := hb
  obtain ⟨m, _, hm, _, _, hm1, hm2, _⟩ := C03_min_max d1 d1'
  obtain ⟨_, M, _, hM, _, _, _, _, hM1, hM2⟩ := C03_min_max d2 d2'
  refine ⟨m, M, hm, hM, ?_, ?_, ?_⟩
  · rintro rfl
    apply n1
    change Ext.posInf ≤ l' at hm2
    exact le_antisymm (Ext.le_posInf _) hm2
  · rintro rfl
    apply n2
    change u' ≤ Ext.negInf at hM2
    exact le_antisymm hM2 (Ext.negInf_le _)
  · rintro v (hv | hv)
    · exact ⟨le_trans hm1 (hs v hv).1, le_trans (hs v hv).2 hM1⟩
    · exact ⟨le_trans hm2 (hs' v hv).1, le_trans (hs' v hv).2 hM2⟩

/-! ### sums -/

theorem accum_lower {acc t inf' r : IntVal} {c : Int} {inf : Res IntVal} {a e : Ext}
    (ha : acc.denote = some a) (ht : t.denote = some e) (hna : a ≠ .posInf)
    (hinf : t.isFinite = false → inf = .ok inf' ∧ inf'.denote = some .negInf)
    (h : accum acc (.fin c) t inf = .ok r) :
    ∃ z, r.denote = some z ∧ z ≠ .posInf ∧
      ∀ p x : Int, a ≤ .fin p → (∀ q, e = .fin q → c * q ≤ c * x) → z ≤ .fin (p + c * x) := by
  unfold accum at h
  by_cases hf : t.isFinite = true
  · rw [if_pos hf] at h
    have et := finite_fin hf
    rw [et] at ht h
    have ee : e = .fin t.v := (Option.some.inj ht).symm
    by_cases hg : acc.isFinite = true
    · rw [if_pos hg, Res.bind_eq_ok] at h
      obtain ⟨p, hp, h⟩ := h
      rw [mul_fin hp, finite_fin hg] at h
      rw [finite_fin hg] at ha
      have ea : a = .fin acc.v := (Option.some.inj ha).symm
      rw [add_fin h]
      refine ⟨_, rfl, by simp, fun q x h1 h2 => ?_⟩
      rw [ea, Ext.fin_le_fin] at h1
      have := h2 _ ee
      rw [Ext.fin_le_fin]; dsimp only [IntVal.fin]; omega
    · rw [if_neg hg] at h
      injection h with h
      refine ⟨a, by rw [← h]; exact ha, hna, fun q x _ _ => ?_⟩
      rcases denote_cases ha with ⟨_, rfl⟩ | ⟨_, rfl⟩ | ⟨b, rfl, _⟩
      · exact absurd rfl hna
      · simp
      · exact absurd rfl hg
  · rw [if_neg hf] at h
    obtain ⟨h1, h2⟩ := hinf (by simpa using hf)
    rw [h1] at h; injection h with h
    exact ⟨.negInf, by rw [← h]; exact h2, by simp, fun q x _ _ => by simp⟩

theorem accum_upper {acc t inf' r : IntVal} {c : Int} {inf : Res IntVal} {a e : Ext}
    (ha : acc.denote = some a) (ht : t.denote = some e) (hna : a ≠ .negInf)
    (hinf : t.isFinite = false → inf = .ok inf' ∧ inf'.denote = some .posInf)
    (h : accum acc (.fin c) t inf = .ok r) :
    ∃ z, r.denote = some z ∧ z ≠ .negInf ∧
      ∀ p x : Int, .fin p ≤ a → (∀ q, e = .fin q → c * x ≤ c * q) → .fin (p + c * x) ≤ z := by
  unfold accum at h
  by_cases hf : t.isFinite = true
  · rw [if_pos hf] at h
    have et := finite_fin hf
    rw [et] at ht h
    have ee : e = .fin t.v := (Option.some.inj ht).symm
    by_cases hg : acc.isFinite = true
    · rw [if_pos hg, Res.bind_eq_ok] at h
      obtain ⟨p, hp, h⟩ := h
      rw [mul_fin hp, finite_fin hg] at h
      rw [finite_fin hg] at ha
      have ea : a = .fin acc.v := (Option.some.inj ha).symm
      rw [add_fin h]
      refine ⟨_, rfl, by simp, fun q x h1 h2 => ?_⟩
      rw [ea, Ext.fin_le_fin] at h1
      have := h2 _ ee
      rw [Ext.fin_le_fin]; dsimp only [IntVal.fin]; omega
    · rw [if_neg hg] at h
      injection h with h
      refine ⟨a, by rw [← h]; exact ha, hna, fun q x _ _ => ?_⟩
      rcases denote_cases ha with ⟨_, rfl⟩ | ⟨_, rfl⟩ | ⟨b, rfl, _⟩
      · simp
      · exact absurd rfl hna
      · exact absurd rfl hg
  · rw [if_neg hf] at h
    obtain ⟨h1, h2⟩ := hinf (by simpa using hf)
    rw [h1] at h; injection h with h
    exact ⟨.posInf, by rw [← h]; exact h2, by simp, fun q x _ _ => by simp⟩

/-- Bounds on the stack for the elements of a list. -/
inductive GoodL (σ : Asg) : Es → List B → Prop
  | nil : GoodL σ .nil []
  | cons {e es b bs} : Good b (fun v => e.eval σ = some v) → GoodL σ es bs →
      GoodL σ (.cons e es) (b :: bs)

theorem infinite_low {x : IntVal} {e : Ext} (h : x.denote = some e) (hn : e ≠ .posInf)
    (hf : x.isFinite = false) : x = ⟨-1, true⟩ ∧ e = .negInf := by
  rcases denote_cases h with ⟨_, rfl⟩ | ⟨h1, h2⟩ | ⟨b, rfl, _⟩
  · exact absurd rfl hn
  · exact ⟨h1, h2⟩
  · simp [IntVal.isFinite, IntVal.fin] at hf

theorem infinite_high {x : IntVal} {e : Ext} (h : x.denote = some e) (hn : e ≠ .negInf)
    (hf : x.isFinite = false) : x = ⟨1, true⟩ ∧ e = .posInf := by
  rcases denote_cases h with ⟨h1, h2⟩ | ⟨_, rfl⟩ | ⟨b, rfl, _⟩
  · exact ⟨h1, h2⟩
  · exact absurd rfl hn
  · simp [IntVal.isFinite, IntVal.fin] at hf

theorem linLoop_sound (σ : Asg) {xs : Es} {bs : List B} (hg : GoodL σ xs bs) :
    ∀ (cs : List Int) (r : List B) (lb ub : IntVal) (l0 u0 : Ext) (b : B) (s' : St),
      cs.length = xs.length → lb.denote = some l0 → ub.denote = some u0 →
      l0 ≠ .posInf → u0 ≠ .negInf → linLoop cs ⟨bs ++ r, true⟩ lb ub = .ok (b, s') →
      s' = ⟨r, true⟩ ∧ Good b (fun v => ∃ p t, l0 ≤ .fin p ∧ .fin p ≤ u0 ∧ xs.lin σ cs = some t ∧
        v = p + t) := by
  induction hg with
  | nil =>
    intro cs r lb ub l0 u0 b s' hlen hl hu n1 n2 h
    cases cs with
    | cons c cs => simp [Es.length] at hlen
    | nil =>
      simp only [linLoop, List.nil_append, Res.ok.injEq, Prod.mk.injEq] at h
      refine ⟨h.2.symm, ?_⟩
      rw [← h.1]
      refine ⟨l0, u0, hl, hu, n1, n2, ?_⟩
      rintro v ⟨p, t, h1, h2, h3, rfl⟩
      simp only [Es.lin, Option.some.injEq] at h3
      subst h3
      rw [Int.add_zero]
      exact ⟨h1, h2⟩
  | @cons e es b0 bs hb _ ih =>
    intro cs r lb ub l0 u0 b s' hlen hl hu n1 n2 h
    cases cs with
    | nil => simp [Es.length] at hlen
    | cons c cs =>
      simp only [List.length_cons, Es.length, Nat.add_right_cancel_iff] at hlen
      simp only [linLoop, List.cons_append, pop_cons, Res.ok_bind] at h
      obtain ⟨el, eu, d1, d2, m1, m2, hs⟩ := hb
      by_cases c0 : c > 0
      · rw [if_pos c0] at h
        simp only [Res.bind_eq_ok] at h
        obtain ⟨lb', hl', ub', hu', h⟩ := h
        obtain ⟨zl, dl, nl, sl⟩ := accum_lower hl d1 n1
          (fun hf => ⟨rfl, by rw [d1, (infinite_low d1 m1 hf).2]⟩) hl'
        obtain ⟨zu, du, nu, su⟩ := accum_upper hu d2 n2
          (fun hf => ⟨rfl, by rw [d2, (infinite_high d2 m2 hf).2]⟩) hu'
        obtain ⟨hs1, hg1⟩ := ih cs r lb' ub' zl zu b s' hlen dl du nl nu h
        refine ⟨hs1, good_mono hg1 ?_⟩
        rintro v ⟨p, t, h1, h2, h3, rfl⟩
        simp only [Es.lin, List.head?_cons, List.tail_cons, Option.bind_eq_bind, Option.bind_some,
          Option.bind_eq_some_iff, Option.some.injEq] at h3
        obtain ⟨x, hx, t', ht', rfl⟩ := h3
        have hxs := hs x hx
        refine ⟨p + c * x, t', sl p x h1 ?_, su p x h2 ?_, ht', by omega⟩
        · intro q hq
          rw [hq] at hxs
          exact mul_le_mul_of_nonneg_left (by simpa using hxs.1) (by omega)
        · intro q hq
          rw [hq] at hxs
          exact mul_le_mul_of_nonneg_left (by simpa using hxs.2) (by omega)
      · rw [if_neg c0] at h
        simp only [Res.bind_eq_ok] at h
        obtain ⟨lb', hl', ub', hu', h⟩ := h
        have np : IntVal.neg ⟨1, true⟩ = .ok ⟨-1, true⟩ := by decide
        have nn : IntVal.neg ⟨-1, true⟩ = .ok ⟨1, true⟩ := by decide
        obtain ⟨zl, dl, nl, sl⟩ := accum_lower (inf' := ⟨-1, true⟩) hl d2 n1
          (fun hf => ⟨by rw [(infinite_high d2 m2 hf).1, np], rfl⟩) hl'
        obtain ⟨zu, du, nu, su⟩ := accum_upper (inf' := ⟨1, true⟩) hu d1 n2
          (fun hf => ⟨by rw [(infinite_low d1 m1 hf).1, nn], rfl⟩) hu'
        obtain ⟨hs1, hg1⟩ := ih cs r lb' ub' zl zu b s' hlen dl du nl nu h
        refine ⟨hs1, good_mono hg1 ?_⟩
        rintro v ⟨p, t, h1, h2, h3, rfl⟩
        simp only [Es.lin, List.head?_cons, List.tail_cons, Option.bind_eq_bind, Option.bind_some,
          Option.bind_eq_some_iff, Option.some.injEq] at h3
        obtain ⟨x, hx, t', ht', rfl⟩ := h3
        have hxs := hs x hx
        refine ⟨p + c * x, t', sl p x h1 ?_, su p x h2 ?_, ht', by omega⟩
        · intro q hq
          rw [hq] at hxs
          exact mul_le_mul_of_nonpos_left (by simpa using hxs.2) (by omega)
        · intro q hq
          rw [hq] at hxs
          exact mul_le_mul_of_nonpos_left (by simpa using hxs.1) (by omega)

end Bounds
end MZ
