import Verif.LinArith.Enc
import Verif.LinLib.Bools

/-! # Lemmas: multiplication -/

namespace MZ.LinArith

open MZ.LinLib

variable (o : Opts)

theorem V_mem_Icc (x : V) : x.val ∈ Finset.Icc x.lb x.ub := Finset.mem_Icc.2 ⟨x.lb_le, x.le_ub⟩

theorem dom_Icc (x : V) {d : Int} (h : d ∈ x.dom) : d ∈ Finset.Icc x.lb x.ub :=
  Finset.mem_Icc.2 ⟨x.lb_le_of h, x.le_ub_of h⟩

theorem mul_btw {l u x : Int} (y : Int) (h1 : l ≤ x) (h2 : x ≤ u) : Btw (l * y) (u * y) (x * y) := by
  rcases le_or_gt 0 y with h | h
  · exact Btw.of (Or.inl ⟨mul_le_mul_of_nonneg_right h1 h, mul_le_mul_of_nonneg_right h2 h⟩)
  · exact Btw.of (Or.inr ⟨mul_le_mul_of_nonpos_right h2 h.le, mul_le_mul_of_nonpos_right h1 h.le⟩)

theorem mul_corners {x y : V} {a b : Int} (ha : a ∈ Finset.Icc x.lb x.ub) (hb : b ∈ Finset.Icc y.lb y.ub) :
    rMin x y ≤ a * b ∧ a * b ≤ rMax x y := by
  rw [Finset.mem_Icc] at ha hb
  have h1 : Btw (x.lb * y.lb) (x.lb * y.ub) (x.lb * b) := by
    have := mul_btw x.lb hb.1 hb.2
    rwa [mul_comm y.lb, mul_comm y.ub, mul_comm b] at this
  have h2 : Btw (x.ub * y.lb) (x.ub * y.ub) (x.ub * b) := by
    have := mul_btw x.ub hb.1 hb.2
    rwa [mul_comm y.lb, mul_comm y.ub, mul_comm b] at this
  exact btw_corners h1 h2 (mul_btw b ha.1 ha.2) (cornerSet x y) _ (by simp [cornerSet]) (by simp [cornerSet])
    (by simp [cornerSet]) (by simp [cornerSet])

theorem sum_pair {x y : V} (A B : Finset Int) (hx : x.val ∈ A) (hy : y.val ∈ B) (f : Int → Int → Int) (pp : Int → Int → Int)
    (h : ∀ i ∈ A, ∀ j ∈ B, pp i j = if i = x.val ∧ j = y.val then 1 else 0) :
    ∑ i ∈ A, ∑ j ∈ B, f i j * pp i j = f x.val y.val := by
  rw [Finset.sum_eq_single x.val, Finset.sum_eq_single y.val, h _ hx _ hy]
  · simp
  · intro j hj hne; rw [h _ hx _ hj]; simp [hne]
  · intro h'; exact absurd hy h'
  · intro i hi hne
    exact Finset.sum_eq_zero fun j hj => by rw [h _ hi _ hj]; simp [hne]
  · intro h'; exact absurd hx h'

theorem marginals {A B : Finset Int} {x y : Int} (hx : x ∈ A) (pp : Int → Int → Int)
    (h01 : ∀ i ∈ A, ∀ j ∈ B, 0 ≤ pp i j) {pX pY : Int → Int} (hX : ∀ i ∈ A, pX i = if i = x then 1 else 0)
    (hY : ∀ j ∈ B, pY j = if j = y then 1 else 0) (hr : ∀ i ∈ A, ∑ j ∈ B, pp i j = pX i)
    (hc : ∀ j ∈ B, ∑ i ∈ A, pp i j = pY j) :
    ∀ i ∈ A, ∀ j ∈ B, pp i j = if i = x ∧ j = y then 1 else 0 := by
  have z1 : ∀ i ∈ A, ∀ j ∈ B, i ≠ x → pp i j = 0 := by
    intro i hi j hj hne
    have h1 := hr i hi
    rw [hX i hi, if_neg hne] at h1
    exact (Finset.sum_eq_zero_iff_of_nonneg (fun k hk => h01 i hi k hk)).1 h1 j hj
  have z2 : ∀ i ∈ A, ∀ j ∈ B, j ≠ y → pp i j = 0 := by
    intro i hi j hj hne
    have h1 := hc j hj
    rw [hY j hj, if_neg hne] at h1
    exact (Finset.sum_eq_zero_iff_of_nonneg (fun k hk => h01 k hk j hj)).1 h1 i hi
  intro i hi j hj
  split_ifs with h
  · obtain ⟨rfl, rfl⟩ := h
    have h1 := hc j hj
    rw [hY j hj, if_pos rfl, Finset.sum_eq_single i (fun k hk hne => z1 k hk j hj hne) (fun h' => absurd hi h')] at h1
    exact h1
  · by_cases h1 : i = x
    · exact z2 i hi j hj (fun h2 => h ⟨h1, h2⟩)
    · exact z1 i hi j hj h1

theorem eqEncode2_iff (x y : V) (pp : Int → Int → Int) :
    EqEncode2 o x y pp ↔ ∀ i ∈ Finset.Icc x.lb x.ub, ∀ j ∈ Finset.Icc y.lb y.ub,
      pp i j = if i = x.val ∧ j = y.val then 1 else 0 := by
  unfold EqEncode2
  constructor
  · rintro ⟨pX, pY, hX, hY, hpp, -, -, -, hr, hc⟩ i hi j hj
    have h0 := hpp i hi j hj
    by_cases hd : i ∈ x.dom ∧ j ∈ y.dom
    · refine marginals (A := x.dom) (B := y.dom) x.mem pp ?_ (fun i hi => enc_at o hX hi) (fun j hj => enc_at o hY hj)
        hr hc i hd.1 j hd.2
      intro k hk l hl
      have := hpp k (dom_Icc x hk) l (dom_Icc y hl)
      rw [if_pos ⟨hk, hl⟩] at this
      omega
    · rw [if_neg hd] at h0
      rw [h0, if_neg]
      rintro ⟨rfl, rfl⟩
      exact hd ⟨x.mem, y.mem⟩
  · intro h
    obtain ⟨pX, hX⟩ := exists_eqEncode o x
    obtain ⟨pY, hY⟩ := exists_eqEncode o y
    have h' : ∀ i ∈ x.dom, ∀ j ∈ y.dom, pp i j = if i = x.val ∧ j = y.val then 1 else 0 :=
      fun i hi j hj => h i (dom_Icc x hi) j (dom_Icc y hj)
    refine ⟨pX, pY, hX, hY, ?_, V_mem_Icc x, V_mem_Icc y, ?_, ?_, ?_⟩
    · intro i hi j hj
      rw [h i hi j hj]
      split_ifs with a b c
      · right; rfl
      · left; rfl
      · obtain ⟨rfl, rfl⟩ := c; exact absurd ⟨x.mem, y.mem⟩ a
      · rfl
    · have := sum_pair (x := x) (y := y) x.dom y.dom x.mem y.mem (fun _ _ => 1) pp h'
      simpa using this
    · intro d hd
      rw [enc_at o hX hd, Finset.sum_eq_single y.val, h' d hd _ y.mem]
      · simp
      · intro e he hne; rw [h' d hd e he]; simp [hne]
      · intro h''; exact absurd y.mem h''
    · intro e he
      rw [enc_at o hY he, Finset.sum_eq_single x.val, h' _ x.mem e he]
      · simp
      · intro d hd hne; rw [h' d hd e he]; simp [hne]
      · intro h''; exact absurd x.mem h''

theorem intTimesUnary_iff (x y z : V) : intTimesUnary o x y z ↔ z.val = x.val * y.val := by
  unfold intTimesUnary
  constructor
  · rintro ⟨pp, hpp, -, -, hz, -⟩
    rw [hz]
    exact sum_pair _ _ (V_mem_Icc x) (V_mem_Icc y) (fun i j => i * j) pp ((eqEncode2_iff o x y pp).1 hpp)
  · intro h
    refine ⟨fun i j => if i = x.val ∧ j = y.val then 1 else 0, (eqEncode2_iff o x y _).2 fun _ _ _ _ => rfl, ?_, ?_, ?_, ?_⟩
    · rw [h]; exact (mul_corners (V_mem_Icc x) (V_mem_Icc y)).1
    · rw [h]; exact (mul_corners (V_mem_Icc x) (V_mem_Icc y)).2
    · rw [h]
      exact (sum_pair _ _ (V_mem_Icc x) (V_mem_Icc y) (fun i j => i * j) _ (fun _ _ _ _ => rfl)).symm
    · intro i _ j _ hn
      dsimp only
      rw [if_neg]
      rintro ⟨rfl, rfl⟩
      exact hn (h ▸ z.mem)

theorem intTimesUnaryNofn_iff (x y z : V) : intTimesUnaryNofn o x y z ↔ z.val = x.val * y.val := by
  unfold intTimesUnaryNofn
  split_ifs with hf
  · rfl
  constructor
  · rintro ⟨pX, pY, pp, hX, hY, -, -, -, hz, hr, hc⟩
    rw [hz]
    refine sum_pair _ _ (V_mem_Icc x) (V_mem_Icc y) (fun i j => i * j) _ ?_
    exact marginals (V_mem_Icc x) _ (fun i _ j _ => by rw [V.bit_val]; split_ifs <;> omega)
      ((eqEncode_iff o x pX).1 hX) ((eqEncode_iff o y pY).1 hY) (fun i hi => (hr i hi).symm) (fun j hj => (hc j hj).symm)
  · intro h
    obtain ⟨pX, hX⟩ := exists_eqEncode o x
    obtain ⟨pY, hY⟩ := exists_eqEncode o y
    have hb : ∀ i j : Int, (V.bit (decide (i = x.val ∧ j = y.val))).val = if i = x.val ∧ j = y.val then 1 else 0 := by
      intro i j; rw [V.bit_val]; simp only [decide_eq_true_eq]
    refine ⟨pX, pY, fun i j => decide (i = x.val ∧ j = y.val), hX, hY, ?_, ?_, ?_, ?_, ?_, ?_⟩
    · rw [h]; exact (mul_corners (V_mem_Icc x) (V_mem_Icc y)).1
    · rw [h]; exact (mul_corners (V_mem_Icc x) (V_mem_Icc y)).2
    · have := sum_pair (x := x) (y := y) _ _ (V_mem_Icc x) (V_mem_Icc y) (fun _ _ => 1) _ (fun i _ j _ => hb i j)
      simpa only [one_mul] using this
    · rw [h]
      exact (sum_pair _ _ (V_mem_Icc x) (V_mem_Icc y) (fun i j => i * j) _ (fun i _ j _ => hb i j)).symm
    · intro d hd
      rw [(eqEncode_iff o x pX).1 hX d hd, Finset.sum_eq_single y.val, hb]
      · simp
      · intro e _ hne; rw [hb]; simp [hne]
      · intro h''; exact absurd (V_mem_Icc y) h''
    · intro e he
      rw [(eqEncode_iff o y pY).1 hY e he, Finset.sum_eq_single x.val, hb]
      · simp
      · intro d _ hne; rw [hb]; simp [hne]
      · intro h''; exact absurd (V_mem_Icc x) h''

theorem intTimesElem_iff (x y z : V) : intTimesElem o x y z ↔ z.val = x.val * y.val := by
  unfold intTimesElem
  dsimp only
  rw [arrayVarIntElement_iff, if_pos x.mem]
  constructor
  · rintro ⟨-, -, h⟩; exact h
  · intro h
    refine ⟨fun d hd => ?_, ⟨x.lb_le, x.le_ub⟩, h⟩
    rw [Finset.mem_Icc]
    split_ifs with hx
    · exact mul_corners hd (V_mem_Icc y)
    · rw [V.const_val]
      have := mul_corners (V_mem_Icc x) (V_mem_Icc y)
      exact ⟨le_refl _, this.1.trans this.2⟩

theorem otherVal_spec {x : V} (h2 : x.dom.card = 2) (h0 : 0 ∈ x.dom) :
    otherVal x ≠ 0 ∧ (x.val = 0 ∨ x.val = otherVal x) := by
  have hc : (x.dom \ {0}).card = 1 := by
    rw [Finset.card_sdiff_of_subset (by simpa using h0)]; simp [h2]
  obtain ⟨a, ha⟩ := Finset.card_eq_one.1 hc
  have hne : (x.dom \ {0}).Nonempty := by rw [ha]; simp
  have ho : otherVal x ∈ x.dom \ {0} := by
    unfold otherVal; rw [dif_pos hne]; exact Finset.max'_mem _ _
  refine ⟨by simp at ho; exact ho.2, ?_⟩
  by_cases hx : x.val = 0
  · exact Or.inl hx
  · right
    have h1 : x.val ∈ x.dom \ {0} := by simp [x.mem, hx]
    rw [ha, Finset.mem_singleton] at ho h1
    rw [ho, h1]

theorem intTimes_iff (same : Bool) (x y z : V) (hs : same = true → x.val = y.val)
    (hz : Finset.Icc 0 1 = x.dom → Finset.Icc 0 1 = y.dom → 0 ≤ z.val) :
    intTimes o same x y z ↔ z.val = x.val * y.val := by
  unfold intTimes
  by_cases h1 : x.fixed
  · rw [if_pos h1, V.fix_eq h1]
  rw [if_neg h1]
  by_cases h2 : y.fixed
  · rw [if_pos h2, V.fix_eq h2]
  rw [if_neg h2]
  by_cases h3 : same = true
  · rw [if_pos h3, ← hs h3, pow_two]
  rw [if_neg h3]
  by_cases h4 : Finset.Icc 0 1 = x.dom ∧ Finset.Icc 0 1 = y.dom
  · rw [if_pos h4]
    have a := x.mem; have b := y.mem; have c := hz h4.1 h4.2
    rw [← h4.1, Finset.mem_Icc] at a
    rw [← h4.2, Finset.mem_Icc] at b
    unfold boolAndInt
    have ha : x.val = 0 ∨ x.val = 1 := by omega
    have hb : y.val = 0 ∨ y.val = 1 := by omega
    rcases ha with ha | ha <;> rcases hb with hb | hb <;> rw [ha, hb] <;> omega
  rw [if_neg h4]
  by_cases h5 : x.dom.card = 2 ∧ y.dom.card = 2 ∧ 0 ∈ x.dom ∧ 0 ∈ y.dom
  · rw [if_pos h5]
    obtain ⟨ox, hx⟩ := otherVal_spec h5.1 h5.2.2.1
    obtain ⟨oy, hy⟩ := otherVal_spec h5.2.1 h5.2.2.2
    constructor
    · rintro ⟨xn, yn, zn, e1, e2, e3, e4⟩
      rw [boolAndInt_iff _ _ _ (V.bit_isB _) (V.bit_isB _) (V.bit_isB _)] at e4
      rw [e1, e2, e3]
      cases xn <;> cases yn <;> cases zn <;> simp at e4 ⊢
    · intro h
      refine ⟨decide (x.val ≠ 0), decide (y.val ≠ 0), decide (x.val ≠ 0 ∧ y.val ≠ 0), ?_, ?_, ?_, ?_⟩
      · rcases hx with hx | hx <;> simp [hx, ox]
      · rcases hy with hy | hy <;> simp [hy, oy]
      · rw [h]
        rcases hx with hx | hx <;> rcases hy with hy | hy <;> simp [hx, hy, ox, oy]
      · rw [boolAndInt_iff _ _ _ (V.bit_isB _) (V.bit_isB _) (V.bit_isB _)]
        by_cases e1 : x.val = 0 <;> by_cases e2 : y.val = 0 <;> simp [e1, e2]
  rw [if_neg h5]
  split_ifs
  · rfl
  · rw [intTimesElem_iff, mul_comm]
  · rw [intTimesElem_iff]
  · rw [intTimesUnary_iff]

end MZ.LinArith
