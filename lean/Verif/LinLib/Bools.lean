import Verif.LinLib.Flt

/-! # Boolean and linear constraints -/

namespace MZ.LinLib

/-! ## Sums of 0/1 variables -/

/-- The number of variables that are true. -/
def trues (xs : List V) : Nat := xs.countP (fun x => x.val = 1)

theorem sumVal_eq {xs : List V} (h : ∀ x ∈ xs, x.IsB) : sumVal xs = trues xs := by
  induction xs with
  | nil => rfl
  | cons x xs ih =>
    have h1 := (h x (by simp)).val_or
    have h2 := ih fun y hy => h y (by simp [hy])
    have h3 : sumVal (x :: xs) = x.val + sumVal xs := by simp [sumVal]
    rw [h3, h2]
    rcases h1 with h1 | h1
    · simp [trues, h1]
    · simp [trues, h1]; omega

theorem trues_pos {xs : List V} : 1 ≤ trues xs ↔ ∃ x ∈ xs, x.val = 1 := by
  rw [trues, Nat.one_le_iff_ne_zero, ← Nat.pos_iff_ne_zero, List.countP_pos_iff]
  simp

theorem trues_le (xs : List V) : trues xs ≤ xs.length := List.countP_le_length

theorem trues_eq {xs : List V} : trues xs = xs.length ↔ ∀ x ∈ xs, x.val = 1 := by
  rw [trues, List.countP_eq_length]
  simp

theorem fix_zero {x : V} (hx : x.IsB) (h : x.fixed) (h1 : x.fix ≠ 1) : x.val = 0 := by
  rw [V.fix_eq h] at h1; have := hx.val_or; omega

theorem arrayBoolOr_iff (xs : List V) (b : V) (h : ∀ x ∈ xs, x.IsB) (hb : b.IsB) :
    arrayBoolOr xs b ↔ (b.val = 1 ↔ ∃ x ∈ xs, x.val = 1) := by
  unfold arrayBoolOr
  have hv := hb.val_or
  split_ifs with h1 h2 h3
  · obtain ⟨x, hx, h1, h2⟩ := h1
    rw [V.fix_eq h1] at h2
    exact ⟨fun h3 => ⟨fun _ => ⟨x, hx, h2⟩, fun _ => h3⟩, fun h3 => h3.2 ⟨x, hx, h2⟩⟩
  · rw [V.fix_eq h2] at h3
    rw [sumVal_eq h, ← trues_pos]
    omega
  · have h4 := fix_zero hb h2 h3
    rw [h4]
    constructor
    · intro h5
      constructor
      · intro; omega
      · rintro ⟨x, hx, h6⟩; rw [h5 x hx] at h6; omega
    · intro h5 x hx
      rcases (h x hx).val_or with h6 | h6
      · exact h6
      · have := h5.2 ⟨x, hx, h6⟩; omega
  · rw [sumVal_eq h]
    constructor
    · rintro ⟨h4, h5⟩
      constructor
      · intro h6; rw [← trues_pos]; omega
      · rintro ⟨x, hx, h6⟩; have := h5 x hx; omega
    · intro h4
      constructor
      · rcases hv with h5 | h5
        · omega
        · have := trues_pos.2 (h4.1 h5); omega
      · intro x hx
        rcases (h x hx).val_or with h6 | h6
        · omega
        · rw [h4.2 ⟨x, hx, h6⟩]; omega

theorem arrayBoolAnd_iff (xs : List V) (b : V) (h : ∀ x ∈ xs, x.IsB) (hb : b.IsB) :
    arrayBoolAnd xs b ↔ (b.val = 1 ↔ ∀ x ∈ xs, x.val = 1) := by
  unfold arrayBoolAnd
  have hv := hb.val_or
  have hle := trues_le xs
  have heq := @trues_eq xs
  split_ifs with h1 h2 h3
  · obtain ⟨x, hx, h1, h2⟩ := h1
    have h3 := fix_zero (h x hx) h1 h2
    have : ¬ ∀ x ∈ xs, x.val = 1 := fun h' => by have := h' x hx; omega
    constructor
    · intro h4; constructor
      · intro; omega
      · intro h'; exact absurd h' this
    · intro h4
      have : ¬ b.val = 1 := fun h' => this (h4.1 h')
      omega
  · have h4 := fix_zero hb h2 h3
    rw [sumVal_eq h, ← heq]
    omega
  · rw [not_not, V.fix_eq h2] at h3
    tauto
  · rw [sumVal_eq h, ← heq]
    constructor
    · rintro ⟨h4, h5⟩
      constructor
      · intro h6
        rw [heq]
        intro x hx
        have := h5 x hx
        have := (h x hx).val_or
        omega
      · omega
    · intro h4
      refine ⟨by omega, fun x hx => ?_⟩
      have h6 := (h x hx).val_or
      rcases hv with h5 | h5
      · omega
      · rw [heq.1 (h4.1 h5) x hx]; omega

theorem pairB {x y : V} (hx : x.IsB) (hy : y.IsB) : ∀ z ∈ [x, y], z.IsB := by
  intro z hz; simp at hz; rcases hz with rfl | rfl <;> assumption

theorem boolAnd_iff (x y b : V) (hx : x.IsB) (hy : y.IsB) (hb : b.IsB) :
    boolAnd x y b ↔ (b.val = 1 ↔ x.val = 1 ∧ y.val = 1) := by
  rw [boolAnd, arrayBoolAnd_iff _ _ (pairB hx hy) hb]
  simp

theorem boolOr_iff (x y b : V) (hx : x.IsB) (hy : y.IsB) (hb : b.IsB) :
    boolOr x y b ↔ (b.val = 1 ↔ x.val = 1 ∨ y.val = 1) := by
  rw [boolOr, arrayBoolOr_iff _ _ (pairB hx hy) hb]
  simp

theorem boolAndInt_iff (x y b : V) (hx : x.IsB) (hy : y.IsB) (hb : b.IsB) :
    boolAndInt x y b ↔ (b.val = 1 ↔ x.val = 1 ∧ y.val = 1) := by
  have := hx.val_or; have := hy.val_or; have := hb.val_or
  unfold boolAndInt; omega

theorem boolNot_iff (x y : V) (hx : x.IsB) (hy : y.IsB) : boolNot x y ↔ (x.val = 1 ↔ ¬ y.val = 1) := by
  have := hx.val_or; have := hy.val_or
  unfold boolNot; omega

theorem boolEq_iff (x y : V) (hx : x.IsB) (hy : y.IsB) : boolEq x y ↔ (x.val = 1 ↔ y.val = 1) := by
  have := hx.val_or; have := hy.val_or
  unfold boolEq; omega

theorem boolXor2_iff (x y : V) (hx : x.IsB) (hy : y.IsB) : boolXor2 x y ↔ ¬ (x.val = 1 ↔ y.val = 1) := by
  have := hx.val_or; have := hy.val_or
  unfold boolXor2; omega

theorem boolXor_iff (x y b : V) (hx : x.IsB) (hy : y.IsB) (hb : b.IsB) :
    boolXor x y b ↔ (b.val = 1 ↔ ¬ (x.val = 1 ↔ y.val = 1)) := by
  have := hx.val_or; have := hy.val_or; have := hb.val_or
  unfold boolXor; omega

theorem boolEqReif_iff (x y b : V) (hx : x.IsB) (hy : y.IsB) (hb : b.IsB) :
    boolEqReif x y b ↔ (b.val = 1 ↔ (x.val = 1 ↔ y.val = 1)) := by
  have h1 := hx.val_or; have h2 := hy.val_or; have h3 := hb.val_or
  unfold boolEqReif boolEq boolNot
  split_ifs with a a' c c' d d'
  · rw [V.fix_eq a] at a'; omega
  · rw [V.fix_eq a] at a'; omega
  · rw [V.fix_eq c] at c'; omega
  · rw [V.fix_eq c] at c'; omega
  · rw [V.fix_eq d] at d'; omega
  · rw [V.fix_eq d] at d'; omega
  · omega

theorem boolLe_iff (x y : V) (hx : x.IsB) (hy : y.IsB) : boolLe x y ↔ (x.val = 1 → y.val = 1) := by
  have := hx.val_or; have := hy.val_or
  unfold boolLe; omega

theorem boolLeReif_iff (x y b : V) (hx : x.IsB) (hy : y.IsB) (hb : b.IsB) :
    boolLeReif x y b ↔ (b.val = 1 ↔ (x.val = 1 → y.val = 1)) := by
  have := hx.val_or; have := hy.val_or; have := hb.val_or
  unfold boolLeReif; omega

theorem boolLt_iff (x y : V) (hx : x.IsB) : boolLt x y ↔ (¬ x.val = 1 ∧ y.val = 1) := by
  have := hx.val_or
  unfold boolLt; omega

theorem boolLtReif_iff (x y b : V) (hx : x.IsB) (hy : y.IsB) (hb : b.IsB) :
    boolLtReif x y b ↔ (b.val = 1 ↔ ¬ x.val = 1 ∧ y.val = 1) := by
  rw [boolLtReif, boolAnd_iff _ _ _ hx.inv hy hb, inv_one hx]

theorem arrayBoolXor_iff (xs : List V) (h : ∀ x ∈ xs, x.IsB) : arrayBoolXor xs ↔ Odd (trues xs) := by
  unfold arrayBoolXor
  rw [sumVal_eq h]
  have hle := trues_le xs
  constructor
  · rintro ⟨m, h1, -, -, -, h5⟩
    exact ⟨m.toNat, by omega⟩
  · rintro ⟨m, hm⟩
    have : ((xs.length : Int) - 1).tdiv 2 = ((xs.length : Int) - 1) / 2 :=
      Int.tdiv_eq_ediv_of_nonneg (by omega)
    refine ⟨m, by omega, ?_, by omega, ?_, by omega⟩ <;> rw [this] <;> omega

theorem boolClause_iff (xs ys : List V) (hx : ∀ x ∈ xs, x.IsB) (hy : ∀ x ∈ ys, x.IsB) :
    boolClause xs ys ↔ (∃ x ∈ xs, x.val = 1) ∨ ∃ y ∈ ys, ¬ y.val = 1 := by
  unfold boolClause
  rw [sumVal_eq hx, sumVal_eq hy, ← trues_pos]
  have h1 := trues_le ys
  have h2 := @trues_eq ys
  have h3 : (∃ y ∈ ys, ¬ y.val = 1) ↔ trues ys ≠ ys.length := by
    rw [Ne, h2]; push Not; rfl
  rw [h3]
  omega

theorem boolEqImp_iff (x y b : V) (hx : x.IsB) (hy : y.IsB) (hb : b.IsB) :
    boolEqImp x y b ↔ (b.val = 1 → (x.val = 1 ↔ y.val = 1)) := by
  have h1 := hx.val_or; have h2 := hy.val_or; have h3 := hb.val_or
  unfold boolEqImp boolEq
  split_ifs with a a'
  · rw [V.fix_eq a] at a'; omega
  · rw [V.fix_eq a] at a'; tauto
  · omega

theorem boolXorImp_iff (x y b : V) (hx : x.IsB) (hy : y.IsB) (hb : b.IsB) :
    boolXorImp x y b ↔ (b.val = 1 → ¬ (x.val = 1 ↔ y.val = 1)) := by
  have h1 := hx.val_or; have h2 := hy.val_or; have h3 := hb.val_or
  unfold boolXorImp; omega

theorem boolLeImp_iff (x y b : V) (hx : x.IsB) (hy : y.IsB) (hb : b.IsB) :
    boolLeImp x y b ↔ (b.val = 1 → x.val = 1 → y.val = 1) := by
  have h1 := hx.val_or; have h2 := hy.val_or; have h3 := hb.val_or
  unfold boolLeImp; omega

theorem arrayBoolAndImp_iff (xs : List V) (b : V) (h : ∀ x ∈ xs, x.IsB) (hb : b.IsB) :
    arrayBoolAndImp xs b ↔ (b.val = 1 → ∀ x ∈ xs, x.val = 1) := by
  unfold arrayBoolAndImp
  have hv := hb.val_or
  split_ifs with h1 h2 h3
  · rw [V.fix_eq h1] at h2; tauto
  · rw [V.fix_eq h1] at h2; tauto
  · refine ⟨fun _ _ x hx => ?_, fun _ => trivial⟩
    obtain ⟨h4, h5⟩ := h3 x hx
    rwa [V.fix_eq h4] at h5
  · constructor
    · intro h4 h5 x hx
      have := h4 x hx
      have := (h x hx).val_or
      omega
    · intro h4 x hx
      have h6 := (h x hx).val_or
      rcases hv with h5 | h5
      · omega
      · rw [h4 h5 x hx]; omega

theorem zero_sum (n : Nat) : sumVal ((List.replicate n false).map V.bit) = 0 := by
  simp [sumVal]

/-- Some true variable can be chosen by itself. -/
theorem exists_choice {xs : List V} (h : ∀ x ∈ xs, x.IsB) (h1 : ∃ x ∈ xs, x.val = 1) :
    ∃ as : List Bool, as.length = xs.length ∧ (∀ t ∈ as.zip xs, (V.bit t.1).val ≤ t.2.val) ∧
      sumVal (as.map V.bit) = 1 := by
  induction xs with
  | nil => obtain ⟨x, hx, -⟩ := h1; simp at hx
  | cons x xs ih =>
    have h0 := (h x (by simp)).val_or
    have hB : ∀ y ∈ xs, y.IsB := fun y hy => h y (by simp [hy])
    by_cases hx : x.val = 1
    · refine ⟨true :: List.replicate xs.length false, by simp, ?_, ?_⟩
      · intro t ht
        rw [List.zip_cons_cons, List.mem_cons] at ht
        rcases ht with rfl | ht
        · simp [hx]
        · obtain ⟨i, hi, rfl⟩ := List.mem_iff_getElem.1 ht
          simp only [List.getElem_zip, List.getElem_replicate, V.bit_val]
          have := (hB _ (List.getElem_mem (l := xs) (n := i) (by simp at hi; omega))).val_or
          simp; omega
      · simp [sumVal]
    · obtain ⟨as, a1, a2, a3⟩ := ih hB (by
        obtain ⟨y, hy, h2⟩ := h1
        rw [List.mem_cons] at hy
        rcases hy with rfl | hy
        · exact absurd h2 hx
        · exact ⟨y, hy, h2⟩)
      refine ⟨false :: as, by simp [a1], ?_, ?_⟩
      · intro t ht
        rw [List.zip_cons_cons, List.mem_cons] at ht
        rcases ht with rfl | ht
        · simp; omega
        · exact a2 t ht
      · simpa [sumVal] using a3

theorem arrayBoolOrImp_iff (xs : List V) (b : V) (h : ∀ x ∈ xs, x.IsB) (hb : b.IsB) :
    arrayBoolOrImp xs b ↔ (b.val = 1 → ∃ x ∈ xs, x.val = 1) := by
  unfold arrayBoolOrImp
  have hv := hb.val_or
  split_ifs with h1 h2
  · have : ¬ ∃ x ∈ xs, x.val = 1 := by
      rintro ⟨x, hx, h2⟩
      have := fix_zero (h x hx) (h1 x hx).1 (h1 x hx).2
      omega
    constructor
    · intro h2 h3; exact absurd h3 (by rw [h2]; decide)
    · intro h2
      exact hv.resolve_right fun h' => this (h2 h')
  · obtain ⟨x, hx, h3, h4⟩ := h2
    rw [V.fix_eq h3] at h4
    exact ⟨fun _ _ => ⟨x, hx, h4⟩, fun _ => trivial⟩
  · constructor
    · rintro ⟨as, a1, a2, a3⟩ hb1
      rw [hb1, sumVal_eq (by simp only [List.mem_map]; rintro x ⟨b, -, rfl⟩; exact V.bit_isB b)] at a3
      have : ∃ x ∈ as.map V.bit, x.val = 1 := trues_pos.1 (by omega)
      obtain ⟨v, hv', hv1⟩ := this
      obtain ⟨a, ha, rfl⟩ := List.mem_map.1 hv'
      obtain ⟨i, hi, rfl⟩ := List.mem_iff_getElem.1 ha
      have hm := a2 (as[i], xs[i]'(by omega)) (by
        rw [List.mem_iff_getElem]; exact ⟨i, by simp; omega, by simp⟩)
      refine ⟨xs[i]'(by omega), List.getElem_mem _, ?_⟩
      have := (h _ (List.getElem_mem (l := xs) (n := i) (by omega))).val_or
      simp only at hm
      omega
    · intro h3
      rcases hv with h4 | h4
      · refine ⟨List.replicate xs.length false, by simp, ?_, ?_⟩
        · intro t ht
          obtain ⟨i, hi, rfl⟩ := List.mem_iff_getElem.1 ht
          simp only [List.getElem_zip, List.getElem_replicate, V.bit_val]
          have := (h _ (List.getElem_mem (l := xs) (n := i) (by simp at hi; omega))).val_or
          simp; omega
        · rw [zero_sum, h4]
      · rw [h4]; exact exists_choice h (h3 h4)

theorem boolAndImp_iff (x y b : V) (hx : x.IsB) (hy : y.IsB) (hb : b.IsB) :
    boolAndImp x y b ↔ (b.val = 1 → x.val = 1 ∧ y.val = 1) := by
  rw [boolAndImp, arrayBoolAndImp_iff _ _ (pairB hx hy) hb]
  simp

theorem boolOrImp_iff (x y b : V) (hx : x.IsB) (hy : y.IsB) (hb : b.IsB) :
    boolOrImp x y b ↔ (b.val = 1 → x.val = 1 ∨ y.val = 1) := by
  rw [boolOrImp, arrayBoolOrImp_iff _ _ (pairB hx hy) hb]
  simp

theorem boolLtImp_iff (x y b : V) (hx : x.IsB) (hy : y.IsB) (hb : b.IsB) :
    boolLtImp x y b ↔ (b.val = 1 → ¬ x.val = 1 ∧ y.val = 1) := by
  rw [boolLtImp, boolAndImp_iff _ _ _ hx.inv hy hb, inv_one hx]

/-! ## Linear constraints -/

theorem sum2float_val (ts : List (Int × V)) : (sum2float ts).val = ((V.lin ts).val : ℚ) := by
  rw [sum2float, F.lin_val, V.lin_val]
  induction ts with
  | nil => simp
  | cons t ts ih => simp at ih ⊢; rw [ih]

theorem constB {c : Int} (h : c = 0 ∨ c = 1) : (V.const c).IsB := by
  rw [V.IsB]; rcases h with rfl | rfl <;> simp [V.const]

theorem intLinLeReif_iff (o : Opts) (ts : List (Int × V)) (c : Int) (b : V) (hb : b.IsB) :
    intLinLeReif o ts c b ↔ (b.val = 1 ↔ (V.lin ts).val ≤ c) := by
  unfold intLinLeReif
  split_ifs
  · exact intLeReifVC_iff o _ b c hb
  · rw [auxFloatLeIf1_iff o _ _ b hb, auxFloatGeIf0_iff o _ _ b hb, sum2float_val]
    simp only [F.const_val, Int.cast_le]
    have := hb.val_or
    omega
  · rw [intLeReifNopost_iff o _ _ b hb, V.const_val]

theorem intLinEqReif_iff (o : Opts) (ts : List (Int × V)) (c : Int) (b : V) (hb : b.IsB)
    (ho : (o.post = true ∧ o.diff = true) ∨ ¬ (o.avoidNI = true ∧ o.eqOld = true)) :
    intLinEqReif o ts c b ↔ (b.val = 1 ↔ (V.lin ts).val = c) := by
  unfold intLinEqReif
  split_ifs with h1 h2
  · exact intEqReifC_iff o _ b c hb
  · simp only [Bool.and_eq_true] at h1 h2
    tauto
  · rw [auxIntEqIff1_iff o _ _ b hb (Or.inr (by simpa using h1)), V.const_val]

theorem intLinNe_iff (o : Opts) (ts : List (Int × V)) (c : Int)
    (ho : (o.post = true ∧ o.diff = true) ∨ ¬ (o.avoidNI = true ∧ o.eqOld = true)) :
    intLinNe o ts c ↔ (V.lin ts).val ≠ c := by
  unfold intLinNe
  split_ifs
  · exact intNeC_iff o _ c
  · rw [intLinEqReif_iff o ts c _ (constB (Or.inl rfl)) ho, V.const_val]; simp
  · exact intNeSimple_iff o _ c

theorem intLinNeReif_iff (o : Opts) (ts : List (Int × V)) (c : Int) (b : V) (hb : b.IsB)
    (ho : (o.post = true ∧ o.diff = true) ∨ ¬ (o.avoidNI = true ∧ o.eqOld = true)) :
    intLinNeReif o ts c b ↔ (b.val = 1 ↔ (V.lin ts).val ≠ c) := by
  unfold intLinNeReif
  split_ifs
  · exact intNeReifC_iff o _ b c hb
  · rw [intLinEqReif_iff o ts c _ hb.inv ho, inv_one hb]; tauto

theorem intLinLeImp_rest (o : Opts) (ts : List (Int × V)) (c : Int) (b : V) (hb : b.IsB) :
    intLinLeImp.rest o ts c b ↔ (b.val = 1 → (V.lin ts).val ≤ c) := by
  unfold intLinLeImp.rest
  split_ifs
  · rw [intLeImp_iff o _ _ b hb, V.const_val]
  · rw [auxFloatLeIf1_iff o _ _ b hb, sum2float_val, F.const_val, Int.cast_le]
  · rw [auxIntLeIf1_iff o _ _ b hb, V.const_val]

theorem abs_one {a : Int} (h : |a| = 1) : a = 1 ∨ a = -1 := by
  rcases abs_eq (show (0 : Int) ≤ 1 by omega) |>.1 h with h | h
  · exact Or.inl h
  · exact Or.inr h

theorem intLinLeImp_iff (o : Opts) (ts : List (Int × V)) (c : Int) (b : V) (hb : b.IsB) :
    intLinLeImp o ts c b ↔ (b.val = 1 → (V.lin ts).val ≤ c) := by
  unfold intLinLeImp
  split
  · rename_i t1 t2
    split_ifs with h1 h2
    · obtain ⟨rfl, h3, h4⟩ := h1
      rw [intLeImp_iff o _ _ b hb, V.lin_val]
      rcases abs_one h3 with h5 | h5
      · omega
      · have : t2.1 = 1 := by omega
        simp [h5, this]
    · obtain ⟨rfl, h3, h4⟩ := h1
      rw [intLeImp_iff o _ _ b hb, V.lin_val]
      rcases abs_one h3 with h5 | h5
      · have : t2.1 = -1 := by omega
        simp [h5, this]
      · omega
    · exact intLinLeImp_rest o _ c b hb
  · exact intLinLeImp_rest o _ c b hb

theorem intLinEqImp_rest (o : Opts) (ts : List (Int × V)) (c : Int) (b : V) (hb : b.IsB) :
    intLinEqImp.rest o ts c b ↔ (b.val = 1 → (V.lin ts).val = c) := by
  unfold intLinEqImp.rest
  split_ifs
  · rw [intEqImpC_iff o _ b c hb]
  · rw [auxFloatEqIf1_iff o _ _ b hb, sum2float_val, F.const_val, Int.cast_inj]
  · rw [auxIntEqIf1_iff o _ _ b hb, V.const_val]

theorem intLinEqImp_iff (o : Opts) (ts : List (Int × V)) (c : Int) (b : V) (hb : b.IsB) :
    intLinEqImp o ts c b ↔ (b.val = 1 → (V.lin ts).val = c) := by
  unfold intLinEqImp
  split
  · rename_i t1 t2
    split_ifs with h1
    · obtain ⟨rfl, h3, h4⟩ := h1
      rw [intEqImp_iff o _ _ b hb, V.lin_val]
      rcases abs_one h3 with h5 | h5
      · have : t2.1 = -1 := by omega
        simp [h5, this]; omega
      · have : t2.1 = 1 := by omega
        simp [h5, this]; omega
    · exact intLinEqImp_rest o _ c b hb
  · exact intLinEqImp_rest o _ c b hb

theorem isDiff_some {ts : List (ℚ × F)} {c a : ℚ} {x y : F} (h : isDiff ts c = some (a, x, y)) :
    c = 0 ∧ ((a = 1 ∧ (F.lin ts).val = x.val - y.val) ∨ (a = -1 ∧ (F.lin ts).val = y.val - x.val)) := by
  unfold isDiff at h
  split at h
  · rename_i t1 t2
    split_ifs at h with h1
    obtain ⟨rfl, h3, h4⟩ := h1
    simp only [Option.some.injEq, Prod.mk.injEq] at h
    obtain ⟨rfl, rfl, rfl⟩ := h
    refine ⟨rfl, ?_⟩
    rw [F.lin_val]
    rcases (abs_eq (show (0 : ℚ) ≤ 1 by norm_num)).1 h3 with h5 | h5
    · left
      have : t2.1 = -1 := by rw [h5] at h4; linarith
      refine ⟨h5, ?_⟩
      simp [h5, this]; ring
    · right
      have : t2.1 = 1 := by rw [h5] at h4; linarith
      refine ⟨h5, ?_⟩
      simp [h5, this]; ring
  · simp at h

theorem floatLinLeImp_iff (o : Opts) (ts : List (ℚ × F)) (c : ℚ) (b : V) (hb : b.IsB) :
    floatLinLeImp o ts c b ↔ (b.val = 1 → (F.lin ts).val ≤ c) := by
  unfold floatLinLeImp
  split
  · rename_i a x y h
    obtain ⟨rfl, h | h⟩ := isDiff_some h
    · rw [h.1, if_neg (by norm_num), floatLeImp_iff o _ _ b hb, h.2, sub_nonpos]
    · rw [h.1, if_pos (by norm_num), floatLeImp_iff o _ _ b hb, h.2, sub_nonpos]
  · split_ifs
    · rw [floatLeImp_iff o _ _ b hb, F.const_val]
    · rw [auxFloatLeIf1_iff o _ _ b hb, F.const_val]

theorem floatLinLtImp_iff (o : Opts) (ts : List (ℚ × F)) (c : ℚ) (b : V) (he : 0 < o.eps) (hb : b.IsB) :
    floatLinLtImp o ts c b ↔ (b.val = 1 → (F.lin ts).val ≤ c - o.eps) := by
  unfold floatLinLtImp
  split
  · rename_i a x y h
    obtain ⟨rfl, h | h⟩ := isDiff_some h
    · rw [h.1, if_neg (by norm_num), floatLtImp_iff o _ _ b he hb, h.2, zero_sub, sub_le_neg]
    · rw [h.1, if_pos (by norm_num), floatLtImp_iff o _ _ b he hb, h.2, zero_sub, sub_le_neg]
  · split_ifs
    · rw [floatLtImp_iff o _ _ b he hb, F.const_val]
    · rw [auxFloatLtIf1_iff o _ _ b he hb, F.const_val]

theorem floatLinEqImp_iff (o : Opts) (ts : List (ℚ × F)) (c : ℚ) (b : V) (hb : b.IsB) :
    floatLinEqImp o ts c b ↔ (b.val = 1 → (F.lin ts).val = c) := by
  unfold floatLinEqImp
  split
  · rename_i a x y h
    obtain ⟨rfl, h | h⟩ := isDiff_some h
    · rw [floatEqImp_iff o _ _ b hb, h.2, sub_eq_zero]
    · rw [floatEqImp_iff o _ _ b hb, h.2, sub_eq_zero]
      simp only [eq_comm]
  · split_ifs
    · rw [floatEqImp_iff o _ _ b hb, F.const_val]
    · rw [auxFloatEqIf1_iff o _ _ b hb, F.const_val]

theorem floatLinNeImp_sound (o : Opts) (ts : List (ℚ × F)) (c : ℚ) (b : V) (he : 0 < o.eps) (hb : b.IsB)
    (ho : ¬ (o.post = true ∧ o.diff = true) ∨ (isDiff ts c).isSome = true) (h : floatLinNeImp o ts c b) :
    b.val = 1 → (F.lin ts).val ≠ c := by
  unfold floatLinNeImp at h
  split at h
  · rename_i a x y h'
    have := floatNeImp_sound o _ _ b he hb h
    obtain ⟨rfl, h' | h'⟩ := isDiff_some h' <;> rw [h'.2]
    · intro h1 h2; exact this h1 (by linarith)
    · intro h1 h2; exact this h1 (by linarith)
  · rename_i h'
    split_ifs at h with h1
    · rw [h'] at ho; simp at ho h1; simp [h1] at ho
    · exact auxFloatNeIf1_sound o _ _ b he hb h

theorem floatLinNeImp_complete (o : Opts) (ts : List (ℚ × F)) (c : ℚ) (b : V) (he : 0 < o.eps) (hb : b.IsB)
    (ho : ¬ (o.post = true ∧ o.diff = true) ∨ (isDiff ts c).isSome = true) (ha : Apart o (F.lin ts).val c)
    (h : b.val = 1 → (F.lin ts).val ≠ c) : floatLinNeImp o ts c b := by
  unfold floatLinNeImp
  split
  · rename_i a x y h'
    refine floatNeImp_complete o _ _ b he hb ?_ ?_
    · obtain ⟨rfl, h' | h'⟩ := isDiff_some h' <;> rw [h'.2] at ha <;> rcases ha with ha | ha | ha
      · exact Or.inl (by linarith)
      · exact Or.inr (Or.inl (by linarith))
      · exact Or.inr (Or.inr (by linarith))
      · exact Or.inl (by linarith)
      · exact Or.inr (Or.inr (by linarith))
      · exact Or.inr (Or.inl (by linarith))
    · intro h1 h2
      apply h h1
      obtain ⟨rfl, h' | h'⟩ := isDiff_some h' <;> rw [h'.2] <;> linarith
  · rename_i h'
    split_ifs with h1
    · rw [h'] at ho; simp at ho h1; simp [h1] at ho
    · exact auxFloatNeIf1_complete o _ _ b he hb ha h

theorem floatLinEqReif_sound (o : Opts) (ts : List (ℚ × F)) (c : ℚ) (b : V) (he : 0 < o.eps) (hb : b.IsB)
    (h : floatLinEqReif o ts c b) : b.val = 1 ↔ (F.lin ts).val = c := by
  unfold floatLinEqReif at h
  split_ifs at h
  · exact floatEqReif_sound o _ _ b he hb h
  · exact auxFloatEqIff1_sound o _ _ b he hb h

theorem floatLinEqReif_complete (o : Opts) (ts : List (ℚ × F)) (c : ℚ) (b : V) (he : 0 < o.eps) (hb : b.IsB)
    (ha : Apart o (F.lin ts).val c) (h : b.val = 1 ↔ (F.lin ts).val = c) : floatLinEqReif o ts c b := by
  unfold floatLinEqReif
  split_ifs with h1
  · exact floatEqReif_complete o _ _ b he hb ha h
  · exact auxFloatEqIff1_complete o _ _ b he hb (Or.inr (by simpa using h1)) ha h

theorem floatLinNeReif_sound (o : Opts) (ts : List (ℚ × F)) (c : ℚ) (b : V) (he : 0 < o.eps) (hb : b.IsB)
    (ho : ¬ (o.post = true ∧ o.diff = true)) (h : floatLinNeReif o ts c b) : b.val = 1 ↔ (F.lin ts).val ≠ c := by
  unfold floatLinNeReif at h
  split_ifs at h with h1
  · exact absurd (by simpa using h1) ho
  · have := auxFloatEqIff1_sound o _ _ _ he hb.inv h
    rw [inv_one hb, F.const_val] at this
    tauto

theorem floatLinNeReif_complete (o : Opts) (ts : List (ℚ × F)) (c : ℚ) (b : V) (he : 0 < o.eps) (hb : b.IsB)
    (ho : ¬ (o.post = true ∧ o.diff = true)) (ha : Apart o (F.lin ts).val c) (h : b.val = 1 ↔ (F.lin ts).val ≠ c) :
    floatLinNeReif o ts c b := by
  unfold floatLinNeReif
  split_ifs with h1
  · exact absurd (by simpa using h1) ho
  · refine auxFloatEqIff1_complete o _ _ _ he hb.inv (Or.inr ho) ha ?_
    rw [inv_one hb, F.const_val]
    tauto

theorem floatLinLeReif_sound (o : Opts) (ts : List (ℚ × F)) (c : ℚ) (b : V) (he : 0 < o.eps) (hb : b.IsB)
    (h : floatLinLeReif o ts c b) : b.val = 1 ↔ (F.lin ts).val ≤ c := by
  unfold floatLinLeReif at h
  split_ifs at h
  · exact floatLeReifVC_sound o _ b _ he hb h
  · exact LeEps.sound he hb ((floatLeReifNopost_iff o _ _ b he hb).1 h)

theorem floatLinLeReif_complete (o : Opts) (ts : List (ℚ × F)) (c : ℚ) (b : V) (he : 0 < o.eps) (hb : b.IsB)
    (ha : Apart o (F.lin ts).val c) (h : b.val = 1 ↔ (F.lin ts).val ≤ c) : floatLinLeReif o ts c b := by
  unfold floatLinLeReif
  split_ifs
  · exact floatLeReifVC_complete o _ b _ he hb ha h
  · exact (floatLeReifNopost_iff o _ _ b he hb).2 (LeEps.complete he ha h)

end MZ.LinLib
