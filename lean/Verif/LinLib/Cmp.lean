import Verif.LinLib.Model

/-! # The comparisons of integers mean what they say -/

namespace MZ.LinLib

theorem fixed_val {p : V} (h : p.fixed) (c : Int) : (p.fix = c) = (p.val = c) := by rw [V.fix_eq h]

theorem auxIntLeZeroIf0In_iff (o : Opts) (x p : V) (hp : p.IsB) :
    auxIntLeZeroIf0In o x p ↔ (p.val = 0 → x.val ≤ 0) := by
  unfold auxIntLeZeroIf0In
  have hb := hp.val_or
  have h1 := x.lb_le
  have h2 := x.le_ub
  split_ifs with a b c d e
  · rw [V.fix_eq a] at b; tauto
  · rw [V.fix_eq a] at b; tauto
  · omega
  · omega
  · omega
  · rcases hb with h | h <;> rw [h] <;> simp [h2]

theorem auxIntLeZeroIf0_iff (o : Opts) (x p : V) (hp : p.IsB) :
    auxIntLeZeroIf0 o x p ↔ (p.val = 0 → x.val ≤ 0) := by
  unfold auxIntLeZeroIf0
  have hb := hp.val_or
  have h1 := x.lb_le
  split_ifs with a b c d e
  · rw [V.fix_eq a] at b; tauto
  · rw [V.fix_eq a] at b; tauto
  · omega
  · exact auxIntLeZeroIf0In_iff o x p hp
  · rw [auxIntLeZeroIf0In_iff o _ p hp]
    simp only [V.sub_val, V.const_val]
    have hm := Finset.max'_mem _ e
    have hm' := (Finset.mem_filter.1 hm).2
    have : x.val ≤ 0 → x.val ≤ (x.dom.filter (· < 0)).max' e := by
      intro h
      apply Finset.le_max'
      refine Finset.mem_filter.2 ⟨x.mem, ?_⟩
      rcases lt_or_eq_of_le h with h | h
      · exact h
      · exact absurd (h ▸ x.mem) d
    constructor
    · intro h h'; have := h h'; omega
    · intro h h'; have := this (h h'); omega
  · exfalso
    apply e
    refine ⟨x.lb, Finset.mem_filter.2 ⟨x.lb_mem, ?_⟩⟩
    have : x.lb ≠ 0 := fun h => d (h ▸ x.lb_mem)
    omega

variable (o : Opts) (x y p b : V) (c : Int)

theorem auxIntLeIf0_iff (hp : p.IsB) : auxIntLeIf0 o x y p ↔ (p.val = 0 → x.val ≤ y.val) := by
  rw [auxIntLeIf0, auxIntLeZeroIf0_iff o _ p hp, V.sub_val]
  constructor <;> intro h h' <;> have := h h' <;> omega

theorem auxIntGeIf0_iff (hp : p.IsB) : auxIntGeIf0 o x y p ↔ (p.val = 0 → x.val ≥ y.val) := by
  rw [auxIntGeIf0, auxIntLeZeroIf0_iff o _ p hp, V.sub_val]
  constructor <;> intro h h' <;> have := h h' <;> omega

theorem auxIntLeIf1_iff (hp : p.IsB) : auxIntLeIf1 o x y p ↔ (p.val = 1 → x.val ≤ y.val) := by
  rw [auxIntLeIf1, auxIntLeZeroIf0_iff o _ _ hp.inv, V.sub_val, V.inv_val]
  constructor <;> intro h h' <;> have := h (by omega) <;> omega

theorem auxIntGeIf1_iff (hp : p.IsB) : auxIntGeIf1 o x y p ↔ (p.val = 1 → x.val ≥ y.val) := by
  rw [auxIntGeIf1, auxIntLeZeroIf0_iff o _ _ hp.inv, V.sub_val, V.inv_val]
  constructor <;> intro h h' <;> have := h (by omega) <;> omega

theorem auxIntLtIf0_iff (hp : p.IsB) : auxIntLtIf0 o x y p ↔ (p.val = 0 → x.val < y.val) := by
  rw [auxIntLtIf0, auxIntLeZeroIf0_iff o _ p hp, V.addC_val, V.sub_val]
  constructor <;> intro h h' <;> have := h h' <;> omega

theorem auxIntGtIf0_iff (hp : p.IsB) : auxIntGtIf0 o x y p ↔ (p.val = 0 → x.val > y.val) := by
  rw [auxIntGtIf0, auxIntLeZeroIf0_iff o _ p hp, V.addC_val, V.sub_val]
  constructor <;> intro h h' <;> have := h h' <;> omega

theorem auxIntLtIf1_iff (hp : p.IsB) : auxIntLtIf1 o x y p ↔ (p.val = 1 → x.val < y.val) := by
  rw [auxIntLtIf1, auxIntLeZeroIf0_iff o _ _ hp.inv, V.addC_val, V.sub_val, V.inv_val]
  constructor <;> intro h h' <;> have := h (by omega) <;> omega

theorem auxIntGtIf1_iff (hp : p.IsB) : auxIntGtIf1 o x y p ↔ (p.val = 1 → x.val > y.val) := by
  rw [auxIntGtIf1, auxIntLeZeroIf0_iff o _ _ hp.inv, V.addC_val, V.sub_val, V.inv_val]
  constructor <;> intro h h' <;> have := h (by omega) <;> omega

theorem auxIntEqIf1_iff (hp : p.IsB) : auxIntEqIf1 o x y p ↔ (p.val = 1 → x.val = y.val) := by
  unfold auxIntEqIf1
  have hb := hp.val_or
  split_ifs with a a' d e
  · rw [V.fix_eq a] at a'; tauto
  · rw [V.fix_eq a] at a'; tauto
  · rw [V.fix_eq d.1, V.fix_eq d.2] at e
    constructor
    · intro h h'; omega
    · intro h; by_contra h'; exact e (h (by omega))
  · rw [V.fix_eq d.1, V.fix_eq d.2] at e
    push Not at e; tauto
  · rw [auxIntLeIf1_iff o x y p hp, auxIntGeIf1_iff o x y p hp]
    constructor
    · intro h h'; have := h.1 h'; have := h.2 h'; omega
    · intro h; exact ⟨fun h' => (h h').le, fun h' => (h h').ge⟩

/-! ## Equality encoding -/

theorem eqEncode_iff (q : Int → Int) :
    EqEncode o x q ↔ ∀ d ∈ Finset.Icc x.lb x.ub, q d = if d = x.val then 1 else 0 := by
  have hin : ∀ d ∈ x.dom, d ∈ Finset.Icc x.lb x.ub := fun d hd => Finset.mem_Icc.2 ⟨x.lb_le_of hd, x.le_ub_of hd⟩
  constructor
  · rintro ⟨h1, -, h3, h4, -⟩
    have h01 : ∀ d ∈ x.dom, q d = 0 ∨ q d = 1 := fun d hd => by
      have := h1 d (hin d hd); rwa [if_pos hd] at this
    have hex : ∃ d0 ∈ x.dom, q d0 = 1 := by
      by_contra hcon
      push Not at hcon
      have : ∑ d ∈ x.dom, q d = 0 := Finset.sum_eq_zero fun d hd => (h01 d hd).resolve_right (hcon d hd)
      omega
    obtain ⟨d0, hd0, hq⟩ := hex
    have hrest : ∀ d ∈ x.dom, d ≠ d0 → q d = 0 := by
      have hs : ∑ d ∈ x.dom.erase d0, q d = 0 := by
        have := Finset.add_sum_erase x.dom q hd0; omega
      have hz := (Finset.sum_eq_zero_iff_of_nonneg (s := x.dom.erase d0) (f := q)
        (fun d hd => by rcases h01 d (Finset.mem_of_mem_erase hd) with h | h <;> omega)).1 hs
      intro d hd hne
      exact hz d (Finset.mem_erase.2 ⟨hne, hd⟩)
    have hval : x.val = d0 := by
      rw [← h4, Finset.sum_eq_single d0]
      · rw [hq, mul_one]
      · intro d hd hne; rw [hrest d hd hne, mul_zero]
      · intro h; exact absurd hd0 h
    intro d hd
    by_cases hdd : d ∈ x.dom
    · by_cases e : d = d0
      · rw [e, hq, if_pos hval.symm]
      · rw [hrest d hdd e, if_neg (by rw [hval]; exact e)]
    · have := h1 d hd
      rw [if_neg hdd] at this
      rw [this, if_neg]
      intro e; exact hdd (e ▸ x.mem)
  · intro h
    have hd : ∀ d ∈ x.dom, q d = if d = x.val then 1 else 0 := fun d hd => h d (hin d hd)
    refine ⟨?_, hin _ x.mem, ?_, ?_, ?_⟩
    · intro d hd'
      rw [h d hd']
      by_cases a : d ∈ x.dom
      · rw [if_pos a]
        split_ifs
        · exact Or.inr rfl
        · exact Or.inl rfl
      · rw [if_neg a, if_neg]
        intro a'; exact a (a' ▸ x.mem)
    · rw [Finset.sum_congr rfl hd, Finset.sum_ite_eq' x.dom x.val, if_pos x.mem]
    · rw [Finset.sum_eq_single x.val]
      · rw [hd _ x.mem, if_pos rfl, mul_one]
      · intro d h1 h2; rw [hd d h1, if_neg h2, mul_zero]
      · intro h'; exact absurd x.mem h'
    · split_ifs
      · intro d hd'
        rw [hd d hd']
        by_cases e : d = x.val
        · simp [e]
        · rw [if_neg e]; omega

theorem exists_eqEncode : ∃ q, EqEncode o x q :=
  ⟨fun d => if d = x.val then 1 else 0, (eqEncode_iff o x _).2 fun _ _ => rfl⟩

/-! ## Half-reified -/

theorem intLeImp_iff (hb : b.IsB) : intLeImp o x y b ↔ (b.val = 1 → x.val ≤ y.val) := by
  unfold intLeImp
  have h := hb.val_or
  have h1 := x.lb_le; have h2 := x.le_ub; have h3 := y.lb_le; have h4 := y.le_ub
  split_ifs with a a' d e
  · rw [V.fix_eq a] at a'; tauto
  · rw [V.fix_eq a] at a'; tauto
  · exact ⟨fun _ _ => by omega, fun _ => trivial⟩
  · omega
  · exact auxIntLeIf1_iff o x y b hb

theorem intLtImp_iff (hb : b.IsB) : intLtImp o x y b ↔ (b.val = 1 → x.val < y.val) := by
  unfold intLtImp
  split_ifs
  · rw [intLeImp_iff o _ _ b hb, V.addC_val]; exact Iff.rfl
  · rw [intLeImp_iff o _ _ b hb, V.addC_val]
    constructor <;> intro h h' <;> have := h h' <;> omega

theorem intEqImpC_iff (hb : b.IsB) : intEqImpC o x c b ↔ (b.val = 1 → x.val = c) := by
  unfold intEqImpC
  have h := hb.val_or
  split_ifs with a a' d e
  · rw [V.fix_eq a] at a'; tauto
  · rw [V.fix_eq a] at a'; tauto
  · rw [V.fix_eq e]; exact ⟨fun h h' => (h h').symm, fun h h' => (h h').symm⟩
  · exact auxIntEqIf1_iff o x (V.const c) b hb
  · have : x.val ≠ c := fun e => d (e ▸ x.mem)
    omega

theorem inter_nonempty_or : 0 < (x.dom ∩ y.dom).card ∨ x.val ≠ y.val := by
  by_cases h : x.val = y.val
  · left
    exact Finset.card_pos.2 ⟨x.val, Finset.mem_inter.2 ⟨x.mem, h ▸ y.mem⟩⟩
  · right; exact h

theorem intEqImp_iff (hb : b.IsB) : intEqImp o x y b ↔ (b.val = 1 → x.val = y.val) := by
  unfold intEqImp
  have h := hb.val_or
  split_ifs with a a' d e f g
  · rw [V.fix_eq a] at a'; tauto
  · rw [V.fix_eq a] at a'; tauto
  · rw [V.fix_eq e, V.fix_eq f]
  · rw [intEqImpC_iff o y b _ hb, V.fix_eq e]
    exact ⟨fun h h' => (h h').symm, fun h h' => (h h').symm⟩
  · rw [intEqImpC_iff o x b _ hb, V.fix_eq g]
  · exact auxIntEqIf1_iff o x y b hb
  · have := (inter_nonempty_or x y).resolve_left d
    omega

/-! ## Disequality -/

theorem intNeSimple_iff : intNeSimple o x c ↔ x.val ≠ c := by
  unfold intNeSimple
  rw [V.exists_bit (fun v => auxIntLtIf1 o x (V.const c) v ∧ auxIntGtIf0 o x (V.const c) v)]
  simp only [auxIntLtIf1_iff o x _ _ (V.bit_isB _), auxIntGtIf0_iff o x _ _ (V.bit_isB _), V.bit_val, V.const_val]
  simp
  omega

theorem intNeC_iff : intNeC o x c ↔ x.val ≠ c := by
  unfold intNeC
  have h1 := x.lb_le; have h2 := x.le_ub
  split_ifs with a d e f g
  · omega
  · omega
  · rfl
  · constructor
    · rintro ⟨q, hq, h0⟩ he
      have := (eqEncode_iff o x q).1 hq c (Finset.mem_Icc.2 ⟨x.lb_le_of a, x.le_ub_of a⟩)
      rw [if_pos he.symm] at this; omega
    · intro hne
      obtain ⟨q, hq⟩ := exists_eqEncode o x
      refine ⟨q, hq, ?_⟩
      have := (eqEncode_iff o x q).1 hq c (Finset.mem_Icc.2 ⟨x.lb_le_of a, x.le_ub_of a⟩)
      rwa [if_neg (fun e => hne e.symm)] at this
  · exact intNeSimple_iff o x c
  · exact ⟨fun _ e => a (e ▸ x.mem), fun _ => trivial⟩

theorem intNe_iff : intNe o x y ↔ x.val ≠ y.val := by
  unfold intNe
  split_ifs
  · rw [intNeC_iff, V.sub_val]; omega
  · rw [intNeSimple_iff, V.sub_val]; omega

theorem auxIntNeIf1_iff (hp : p.IsB) : auxIntNeIf1 o x y p ↔ (p.val = 1 → x.val ≠ y.val) := by
  unfold auxIntNeIf1
  have hb := hp.val_or
  split_ifs with a a' d e
  · rw [V.fix_eq a] at a'; rw [intNe_iff]; tauto
  · rw [V.fix_eq a] at a'; tauto
  · rw [V.fix_eq d.1, V.fix_eq d.2] at e
    omega
  · rw [V.fix_eq d.1, V.fix_eq d.2] at e
    tauto
  · constructor
    · rintro ⟨q1, q2, h1, h2, h3⟩ h
      rw [intLtImp_iff o _ _ _ (V.bit_isB _)] at h1 h2
      cases q1 <;> cases q2 <;> simp at h1 h2 h3 <;> omega
    · intro h
      rcases hb with h0 | h0
      · refine ⟨false, false, ?_, ?_, ?_⟩
        · rw [intLtImp_iff o _ _ _ (V.bit_isB _)]; simp
        · rw [intLtImp_iff o _ _ _ (V.bit_isB _)]; simp
        · simp [h0]
      · rcases lt_or_gt_of_ne (h h0) with h' | h'
        · refine ⟨true, false, ?_, ?_, ?_⟩
          · rw [intLtImp_iff o _ _ _ (V.bit_isB _)]; simp [h']
          · rw [intLtImp_iff o _ _ _ (V.bit_isB _)]; simp
          · simp [h0]
        · refine ⟨false, true, ?_, ?_, ?_⟩
          · rw [intLtImp_iff o _ _ _ (V.bit_isB _)]; simp
          · rw [intLtImp_iff o _ _ _ (V.bit_isB _)]; simp [h']
          · simp [h0]

/-! ## Reified -/

theorem intLeReifNopost_iff (hb : b.IsB) : intLeReifNopost o x y b ↔ (b.val = 1 ↔ x.val ≤ y.val) := by
  unfold intLeReifNopost
  rw [auxIntLeIf1_iff o x y b hb, auxIntGtIf0_iff o x y b hb]
  have := hb.val_or
  omega

theorem intLeReifVCIn_iff (hb : b.IsB) : intLeReifVCIn o x c b ↔ (b.val = 1 ↔ x.val ≤ c) := by
  unfold intLeReifVCIn
  split_ifs
  · rfl
  · exact intLeReifNopost_iff o x _ b hb

theorem intLeReifVC_iff (hb : b.IsB) : intLeReifVC o x c b ↔ (b.val = 1 ↔ x.val ≤ c) := by
  unfold intLeReifVC
  have h := hb.val_or
  have h1 := x.lb_le; have h2 := x.le_ub
  split_ifs with a a' d e f g
  · rw [V.fix_eq a] at a'; omega
  · rw [V.fix_eq a] at a'; omega
  · omega
  · omega
  · exact intLeReifVCIn_iff o x b c hb
  · rw [intLeReifVCIn_iff o x b _ hb]
    have hm := (Finset.mem_filter.1 (Finset.max'_mem _ g)).2
    have : x.val ≤ (x.dom.filter (· ≤ c - 1)).max' g ↔ x.val ≤ c := by
      constructor
      · intro h; omega
      · intro h
        apply Finset.le_max'
        refine Finset.mem_filter.2 ⟨x.mem, ?_⟩
        have : x.val ≠ c := fun e => f (e ▸ x.mem)
        omega
    rw [this]
  · exfalso
    apply g
    refine ⟨x.lb, Finset.mem_filter.2 ⟨x.lb_mem, ?_⟩⟩
    have : x.lb ≠ c := fun e => f (e ▸ x.lb_mem)
    omega

theorem intLeReifCVIn_iff (hb : b.IsB) : intLeReifCVIn o c y b ↔ (b.val = 1 ↔ c ≤ y.val) := by
  unfold intLeReifCVIn
  split_ifs
  · rfl
  · rw [intLeReifVC_iff o _ b _ hb, V.neg_val]
    omega

theorem intLeReifCV_iff (hb : b.IsB) : intLeReifCV o c y b ↔ (b.val = 1 ↔ c ≤ y.val) := by
  unfold intLeReifCV
  have h := hb.val_or
  have h1 := y.lb_le; have h2 := y.le_ub
  split_ifs with a a' d e f g
  · rw [V.fix_eq a] at a'; omega
  · rw [V.fix_eq a] at a'; omega
  · omega
  · omega
  · exact intLeReifCVIn_iff o y b c hb
  · rw [intLeReifCVIn_iff o y b _ hb]
    have hm := (Finset.mem_filter.1 (Finset.min'_mem _ g)).2
    have : (y.dom.filter (c + 1 ≤ ·)).min' g ≤ y.val ↔ c ≤ y.val := by
      constructor
      · intro h; omega
      · intro h
        apply Finset.min'_le
        refine Finset.mem_filter.2 ⟨y.mem, ?_⟩
        have : y.val ≠ c := fun e => f (e ▸ y.mem)
        omega
    rw [this]
  · exfalso
    apply g
    refine ⟨y.ub, Finset.mem_filter.2 ⟨y.ub_mem, ?_⟩⟩
    have : y.ub ≠ c := fun e => f (e ▸ y.ub_mem)
    omega

theorem intLeReif_iff (hb : b.IsB) : intLeReif o x y b ↔ (b.val = 1 ↔ x.val ≤ y.val) := by
  unfold intLeReif
  have h := hb.val_or
  have h1 := x.lb_le; have h2 := x.le_ub; have h3 := y.lb_le; have h4 := y.le_ub
  split_ifs with a a' d e f
  · rw [V.fix_eq a] at a'; omega
  · rw [V.fix_eq a] at a'; omega
  · omega
  · omega
  · rw [V.sub_val]; omega
  · exact intLeReifNopost_iff o x y b hb

theorem intLtReif_iff (hb : b.IsB) : intLtReif o x y b ↔ (b.val = 1 ↔ x.val < y.val) := by
  unfold intLtReif
  split_ifs
  · rw [intLeReif_iff o _ _ b hb, V.addC_val]; exact Iff.rfl
  · rw [intLeReif_iff o _ _ b hb, V.addC_val]
    omega

theorem auxIntEqIff1_iff (hp : p.IsB) (ho : p.fixed ∨ ¬ (o.post = true ∧ o.diff = true)) :
    auxIntEqIff1 o x y p ↔ (p.val = 1 ↔ x.val = y.val) := by
  unfold auxIntEqIff1
  have hb := hp.val_or
  split_ifs with a a' d e
  · rw [V.fix_eq a] at a'; omega
  · rw [V.fix_eq a] at a'; rw [intNe_iff]; omega
  · exfalso
    simp only [Bool.and_eq_true] at d
    rcases ho with h | h
    · exact a h
    · exact h d
  · constructor
    · rintro ⟨q1, q2, h1, h2, h3, h4, h5⟩
      rw [auxIntLeIf1_iff o x y p hp] at h1
      rw [auxIntGeIf1_iff o x y p hp] at h2
      rw [auxIntLtIf0_iff o x y _ (V.bit_isB _)] at h3
      rw [auxIntGtIf0_iff o x y _ (V.bit_isB _)] at h4
      cases q1 <;> cases q2 <;> simp at h3 h4 h5 <;> omega
    · intro h
      refine ⟨decide (y.val ≤ x.val), decide (x.val ≤ y.val), ?_⟩
      rw [auxIntLeIf1_iff o x y p hp, auxIntGeIf1_iff o x y p hp, auxIntLtIf0_iff o x y _ (V.bit_isB _),
        auxIntGtIf0_iff o x y _ (V.bit_isB _)]
      by_cases h1 : x.val ≤ y.val <;> by_cases h2 : y.val ≤ x.val <;> simp [h1, h2] <;> omega
  · constructor
    · rintro ⟨q1, q2, h1, h2, h3⟩
      rw [intLeReif_iff o _ _ _ (V.bit_isB _)] at h1 h2
      cases q1 <;> cases q2 <;> simp at h1 h2 h3 <;> omega
    · intro h
      refine ⟨decide (x.val ≤ y.val), decide (y.val ≤ x.val), ?_⟩
      rw [intLeReif_iff o _ _ _ (V.bit_isB _), intLeReif_iff o _ _ _ (V.bit_isB _)]
      by_cases h1 : x.val ≤ y.val <;> by_cases h2 : y.val ≤ x.val <;> simp [h1, h2] <;> omega

theorem auxIntEqIff1Weak_iff (hp : p.IsB) : auxIntEqIff1Weak o x y p ↔ (p.val = 1 ↔ x.val = y.val) := by
  unfold auxIntEqIff1Weak
  have hb := hp.val_or
  constructor
  · rintro ⟨q1, q2, h1, h2, h3, h4⟩
    rw [auxIntLtIf0_iff o _ _ _ (V.bit_isB _), V.sub_val] at h1
    rw [auxIntGtIf0_iff o _ _ _ (V.bit_isB _), V.add_val] at h2
    cases q1 <;> cases q2 <;> simp at h1 h2 h3 h4 <;> omega
  · intro h
    refine ⟨decide (¬ x.val - p.val < y.val), decide (¬ x.val + p.val > y.val), ?_⟩
    rw [auxIntLtIf0_iff o _ _ _ (V.bit_isB _), V.sub_val, auxIntGtIf0_iff o _ _ _ (V.bit_isB _), V.add_val]
    by_cases h1 : x.val - p.val < y.val <;> by_cases h2 : x.val + p.val > y.val <;>
      simp only [h1, h2, not_true_eq_false, not_false_eq_true, decide_true, decide_false, V.bit_val] <;>
      simp <;> omega

theorem auxIntEqIff1Alt_iff (hp : p.IsB) : auxIntEqIff1Alt o x y p ↔ (p.val = 1 ↔ x.val = y.val) := by
  unfold auxIntEqIff1Alt
  have hb := hp.val_or
  constructor
  · rintro ⟨q1, q2, h1, h2, h3, h4, h5⟩
    rw [auxIntLtIf0_iff o _ _ _ (V.bit_isB _), V.sub_val] at h1
    rw [auxIntGtIf0_iff o _ _ _ (V.bit_isB _), V.add_val] at h2
    cases q1 <;> cases q2 <;> simp at h1 h2 h3 h4 h5 <;> omega
  · intro h
    refine ⟨decide (¬ x.val - p.val < y.val), decide (¬ x.val + p.val > y.val), ?_⟩
    rw [auxIntLtIf0_iff o _ _ _ (V.bit_isB _), V.sub_val, auxIntGtIf0_iff o _ _ _ (V.bit_isB _), V.add_val]
    by_cases h1 : x.val - p.val < y.val <;> by_cases h2 : x.val + p.val > y.val <;>
      simp only [h1, h2, not_true_eq_false, not_false_eq_true, decide_true, decide_false, V.bit_val] <;>
      simp <;> omega

theorem intEqReifC_iff (hb : b.IsB) : intEqReifC o x c b ↔ (b.val = 1 ↔ x.val = c) := by
  unfold intEqReifC
  have h := hb.val_or
  split_ifs with a a' d e f g i j
  · rw [V.fix_eq a] at a'; omega
  · rw [V.fix_eq a] at a'; rw [intNeC_iff]; omega
  · rw [V.fix_eq e]; omega
  · have hm := Finset.max'_mem _ g
    generalize (x.dom \ {c}).max' g = m at hm
    have hm1 := (Finset.mem_sdiff.1 hm).1
    have hm2 : m ≠ c := fun e => (Finset.mem_sdiff.1 hm).2 (Finset.mem_singleton.2 e)
    have hval : x.val = m ∨ x.val = c := by
      by_contra hcon
      push Not at hcon
      have : ({x.val, m, c} : Finset Int) ⊆ x.dom := by
        intro t ht
        simp only [Finset.mem_insert, Finset.mem_singleton] at ht
        rcases ht with rfl | rfl | rfl
        exacts [x.mem, hm1, d]
      have h3 := Finset.card_le_card this
      rw [Finset.card_eq_three.2 ⟨x.val, m, c, hcon.1, hcon.2, hm2, rfl⟩] at h3
      omega
    rcases h with h | h <;> rw [h] <;> rcases hval with h' | h' <;> rw [h'] <;> simp <;> omega
  · exfalso
    apply g
    rw [← Finset.card_pos]
    have := Finset.card_sdiff_add_card_inter x.dom {c}
    have h1 : (x.dom ∩ {c}).card ≤ 1 := (Finset.card_le_card Finset.inter_subset_right).trans (by simp)
    omega
  · rfl
  · constructor
    · rintro ⟨q, hq, h0⟩
      have := (eqEncode_iff o x q).1 hq c (Finset.mem_Icc.2 ⟨x.lb_le_of d, x.le_ub_of d⟩)
      rw [← h0, this]
      split_ifs with k <;> simp [k] <;> omega
    · intro hne
      obtain ⟨q, hq⟩ := exists_eqEncode o x
      refine ⟨q, hq, ?_⟩
      have := (eqEncode_iff o x q).1 hq c (Finset.mem_Icc.2 ⟨x.lb_le_of d, x.le_ub_of d⟩)
      rw [this]
      split_ifs with k <;> omega
  · rw [auxIntEqIff1_iff o x _ b hb (Or.inr (fun k => i k.1))]
    rfl
  · have : x.val ≠ c := fun e => d (e ▸ x.mem)
    omega

theorem intEqReif_iff (hb : b.IsB) : intEqReif o x y b ↔ (b.val = 1 ↔ x.val = y.val) := by
  unfold intEqReif
  have h := hb.val_or
  split_ifs with a a' d e f g i
  · rw [V.fix_eq a] at a'; omega
  · rw [V.fix_eq a] at a'; rw [intNe_iff]; omega
  · rw [V.fix_eq e, V.fix_eq f]
  · rw [intEqReifC_iff o y b _ hb, V.fix_eq e]
    omega
  · rw [intEqReifC_iff o x b _ hb, V.fix_eq g]
  · rw [intEqReifC_iff o _ b _ hb, V.sub_val]
    omega
  · exact auxIntEqIff1_iff o x y b hb (Or.inr (by simpa using i))
  · have := (inter_nonempty_or x y).resolve_left d
    omega

theorem intNeReif_iff (hb : b.IsB) : intNeReif o x y b ↔ (b.val = 1 ↔ x.val ≠ y.val) := by
  rw [intNeReif, intEqReif_iff o x y _ hb.inv, V.inv_val]
  have := hb.val_or
  omega

theorem intNeReifC_iff (hb : b.IsB) : intNeReifC o x c b ↔ (b.val = 1 ↔ x.val ≠ c) := by
  rw [intNeReifC, intEqReifC_iff o x _ c hb.inv, V.inv_val]
  have := hb.val_or
  omega

end MZ.LinLib
