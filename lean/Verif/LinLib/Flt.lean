import Verif.LinLib.Cmp

/-! # The comparisons of floats

Strict comparisons use the tolerance `eps`.  Every predicate implies what it says (`_sound`), and holds whenever what it says
is true and the two sides are equal or at least `eps` apart (`_complete`). -/

namespace MZ.LinLib

/-- The two values are equal or at least the tolerance apart. -/
def Apart (o : Opts) (a b : ℚ) : Prop := a = b ∨ a ≤ b - o.eps ∨ b + o.eps ≤ a

variable (o : Opts) (x y : F) (p b : V) (c : ℚ)

theorem Apart.symm {o : Opts} {a b : ℚ} (h : Apart o a b) : Apart o b a := by
  rcases h with h | h | h
  · exact Or.inl h.symm
  · exact Or.inr (Or.inr (by linarith))
  · exact Or.inr (Or.inl (by linarith))

theorem Apart.sub {o : Opts} {a b : ℚ} (h : Apart o a b) : Apart o (a - b) 0 := by
  rcases h with h | h | h
  · exact Or.inl (by linarith)
  · exact Or.inr (Or.inl (by linarith))
  · exact Or.inr (Or.inr (by linarith))

theorem cast01 {p : V} (h : p.IsB) : ((p.val : ℚ) = 0 ∧ p.val = 0) ∨ ((p.val : ℚ) = 1 ∧ p.val = 1) := by
  rcases h.val_or with h | h
  · left; rw [h]; simp
  · right; rw [h]; simp

theorem auxFloatLeZeroIf0_iff (hp : p.IsB) : auxFloatLeZeroIf0 o x p ↔ (p.val = 0 → x.val ≤ 0) := by
  unfold auxFloatLeZeroIf0
  have hb := hp.val_or
  have h1 := x.lb_le
  have h2 := x.le_ub
  split_ifs with a b c d e
  · rw [V.fix_eq a] at b; tauto
  · rw [V.fix_eq a] at b; tauto
  · constructor
    · intro h h'; omega
    · intro h; by_contra h'; have := h (by omega); linarith
  · constructor <;> intro h h' <;> exact h (by omega)
  · rfl
  · rcases cast01 hp with ⟨h, h'⟩ | ⟨h, h'⟩ <;> rw [h, h'] <;> simp [h2]

theorem auxFloatLtZeroIf0_iff (he : 0 < o.eps) (hp : p.IsB) :
    auxFloatLtZeroIf0 o x p ↔ (p.val = 0 → x.val ≤ -o.eps) := by
  unfold auxFloatLtZeroIf0 floatLt
  have hb := hp.val_or
  have h1 := x.lb_le
  have h2 := x.le_ub
  split_ifs with a b c d e
  · rw [V.fix_eq a] at b
    simp only [F.const_val, zero_sub]; tauto
  · rw [V.fix_eq a] at b; tauto
  · constructor
    · intro h h'; omega
    · intro h; by_contra h'; have := h (by omega); linarith
  · constructor <;> intro h h' <;> exact h (by omega)
  · simp only [F.addC_val]
    constructor <;> intro h h' <;> have := h h' <;> linarith
  · rcases cast01 hp with ⟨h, h'⟩ | ⟨h, h'⟩ <;> rw [h, h'] <;> simp [h2]

theorem auxFloatLeIf0_iff (hp : p.IsB) : auxFloatLeIf0 o x y p ↔ (p.val = 0 → x.val ≤ y.val) := by
  rw [auxFloatLeIf0, auxFloatLeZeroIf0_iff o _ p hp, F.sub_val, sub_nonpos]

theorem auxFloatGeIf0_iff (hp : p.IsB) : auxFloatGeIf0 o x y p ↔ (p.val = 0 → y.val ≤ x.val) := by
  rw [auxFloatGeIf0, auxFloatLeZeroIf0_iff o _ p hp, F.sub_val, sub_nonpos]

theorem inv_zero {p : V} : p.inv.val = 0 ↔ p.val = 1 := by rw [V.inv_val]; omega

theorem auxFloatLeIf1_iff (hp : p.IsB) : auxFloatLeIf1 o x y p ↔ (p.val = 1 → x.val ≤ y.val) := by
  rw [auxFloatLeIf1, auxFloatLeZeroIf0_iff o _ _ hp.inv, F.sub_val, sub_nonpos, inv_zero]

theorem auxFloatGeIf1_iff (hp : p.IsB) : auxFloatGeIf1 o x y p ↔ (p.val = 1 → y.val ≤ x.val) := by
  rw [auxFloatGeIf1, auxFloatLeZeroIf0_iff o _ _ hp.inv, F.sub_val, sub_nonpos, inv_zero]

theorem sub_le_neg (a b e : ℚ) : a - b ≤ -e ↔ a ≤ b - e := by constructor <;> intro h <;> linarith

theorem auxFloatLtIf0_iff (he : 0 < o.eps) (hp : p.IsB) :
    auxFloatLtIf0 o x y p ↔ (p.val = 0 → x.val ≤ y.val - o.eps) := by
  rw [auxFloatLtIf0, auxFloatLtZeroIf0_iff o _ p he hp, F.sub_val, sub_le_neg]

theorem auxFloatGtIf0_iff (he : 0 < o.eps) (hp : p.IsB) :
    auxFloatGtIf0 o x y p ↔ (p.val = 0 → y.val ≤ x.val - o.eps) := by
  rw [auxFloatGtIf0, auxFloatLtZeroIf0_iff o _ p he hp, F.sub_val, sub_le_neg]

theorem auxFloatLtIf1_iff (he : 0 < o.eps) (hp : p.IsB) :
    auxFloatLtIf1 o x y p ↔ (p.val = 1 → x.val ≤ y.val - o.eps) := by
  rw [auxFloatLtIf1, auxFloatLtZeroIf0_iff o _ _ he hp.inv, F.sub_val, sub_le_neg, inv_zero]

theorem auxFloatGtIf1_iff (he : 0 < o.eps) (hp : p.IsB) :
    auxFloatGtIf1 o x y p ↔ (p.val = 1 → y.val ≤ x.val - o.eps) := by
  rw [auxFloatGtIf1, auxFloatLtZeroIf0_iff o _ _ he hp.inv, F.sub_val, sub_le_neg, inv_zero]

theorem auxFloatEqIf1_iff (hp : p.IsB) : auxFloatEqIf1 o x y p ↔ (p.val = 1 → x.val = y.val) := by
  unfold auxFloatEqIf1
  have hb := hp.val_or
  split_ifs with a a' d e f g i j
  · rw [V.fix_eq a] at a'; tauto
  · rw [V.fix_eq a] at a'; tauto
  · rw [F.fix_eq d.1, F.fix_eq d.2] at e
    constructor
    · intro h h'; omega
    · intro h; by_contra h'; exact e (h (by omega))
  · rw [F.fix_eq d.1, F.fix_eq d.2] at e
    push Not at e; tauto
  · rw [F.fix_eq f, F.sub_val, sub_ne_zero] at g
    constructor
    · intro h h'; omega
    · intro h; by_contra h'; exact g (h (by omega))
  · rw [F.fix_eq f, F.sub_val, sub_ne_zero] at g
    push Not at g; tauto
  · rw [F.sub_val, sub_eq_zero]
  · rfl
  · rw [auxFloatLeIf1_iff o x y p hp, auxFloatGeIf1_iff o x y p hp]
    constructor
    · intro h h'; exact le_antisymm (h.1 h') (h.2 h')
    · intro h; exact ⟨fun h' => (h h').le, fun h' => (h h').ge⟩

/-! ## Reified -/

/-- What the translation of `b <-> x <= y` says exactly in its general case. -/
def LeEps (o : Opts) (a b : ℚ) (t : V) : Prop := (t.val = 1 → a ≤ b) ∧ (t.val = 0 → b + o.eps ≤ a)

theorem LeEps.sound {o : Opts} {a b : ℚ} {t : V} (he : 0 < o.eps) (ht : t.IsB) (h : LeEps o a b t) :
    t.val = 1 ↔ a ≤ b := by
  refine ⟨h.1, fun h' => ?_⟩
  by_contra h''
  have := h.2 (by have := ht.val_or; omega)
  linarith

theorem LeEps.complete {o : Opts} {a b : ℚ} {t : V} (he : 0 < o.eps) (ha : Apart o a b) (h : t.val = 1 ↔ a ≤ b) :
    LeEps o a b t := by
  refine ⟨h.1, fun h0 => ?_⟩
  have h1 : ¬ a ≤ b := fun h' => by have := h.2 h'; omega
  push Not at h1
  rcases ha with h2 | h2 | h2
  · linarith
  · linarith
  · exact h2

theorem floatLeReifNopost_iff (he : 0 < o.eps) (hb : b.IsB) :
    floatLeReifNopost o x y b ↔ LeEps o x.val y.val b := by
  unfold floatLeReifNopost LeEps
  rw [auxFloatLeIf1_iff o x y b hb, auxFloatGtIf0_iff o x y b he hb]
  simp only [le_sub_iff_add_le]

theorem floatLeReifVC_sound (he : 0 < o.eps) (hb : b.IsB) (h : floatLeReifVC o x c b) : b.val = 1 ↔ x.val ≤ c := by
  unfold floatLeReifVC floatLt at h
  have hv := hb.val_or
  have h1 := x.lb_le; have h2 := x.le_ub
  split_ifs at h with a a' d e f
  · rw [V.fix_eq a] at a'; tauto
  · rw [V.fix_eq a] at a'
    simp only [F.const_val] at h
    constructor
    · intro h'; exact absurd h' a'
    · intro h'; linarith
  · exact ⟨fun _ => h2.trans d, fun _ => h⟩
  · constructor
    · intro h'; omega
    · intro h'; linarith
  · exact LeEps.sound he hb h
  · exact LeEps.sound he hb ((floatLeReifNopost_iff o _ _ b he hb).1 h)

theorem floatLeReifVC_complete (he : 0 < o.eps) (hb : b.IsB) (ha : Apart o x.val c) (h : b.val = 1 ↔ x.val ≤ c) :
    floatLeReifVC o x c b := by
  unfold floatLeReifVC floatLt
  have hv := hb.val_or
  have h1 := x.lb_le; have h2 := x.le_ub
  have hle := LeEps.complete (t := b) he ha h
  split_ifs with a a' d e f
  · rw [V.fix_eq a] at a'; tauto
  · rw [V.fix_eq a] at a'
    simp only [F.const_val]
    have := hle.2 (by omega); linarith
  · exact h.2 (h2.trans d)
  · have : ¬ b.val = 1 := fun h' => by have := h.1 h'; linarith
    omega
  · exact hle
  · exact (floatLeReifNopost_iff o _ _ b he hb).2 hle

theorem floatLeReifCV_sound (he : 0 < o.eps) (hb : b.IsB) (h : floatLeReifCV o c y b) : b.val = 1 ↔ c ≤ y.val := by
  unfold floatLeReifCV floatLt at h
  have hv := hb.val_or
  have h1 := y.lb_le; have h2 := y.le_ub
  split_ifs at h with a a' d e f
  · rw [V.fix_eq a] at a'; tauto
  · rw [V.fix_eq a] at a'
    simp only [F.const_val] at h
    constructor
    · intro h'; exact absurd h' a'
    · intro h'; linarith
  · exact ⟨fun _ => d.trans h1, fun _ => h⟩
  · constructor
    · intro h'; omega
    · intro h'; linarith
  · exact LeEps.sound (a := c) (b := y.val) he hb ⟨h.1, fun h' => by have := h.2 h'; linarith⟩
  · have := floatLeReifVC_sound o _ b _ he hb h
    rw [this, F.neg_val, neg_le_neg_iff]

theorem floatLeReifCV_complete (he : 0 < o.eps) (hb : b.IsB) (ha : Apart o c y.val) (h : b.val = 1 ↔ c ≤ y.val) :
    floatLeReifCV o c y b := by
  unfold floatLeReifCV floatLt
  have hv := hb.val_or
  have h1 := y.lb_le; have h2 := y.le_ub
  have hle := LeEps.complete (t := b) he ha h
  split_ifs with a a' d e f
  · rw [V.fix_eq a] at a'; tauto
  · rw [V.fix_eq a] at a'
    simp only [F.const_val]
    have := hle.2 (by omega); linarith
  · exact h.2 (d.trans h1)
  · have : ¬ b.val = 1 := fun h' => by have := h.1 h'; linarith
    omega
  · exact ⟨hle.1, fun h' => by have := hle.2 h'; linarith⟩
  · refine floatLeReifVC_complete o _ b _ he hb ?_ ?_
    · rw [F.neg_val]
      rcases ha with h | h | h
      · exact Or.inl (by linarith)
      · exact Or.inr (Or.inl (by linarith))
      · exact Or.inr (Or.inr (by linarith))
    · rw [F.neg_val, neg_le_neg_iff]; exact h

theorem floatLeReif_sound (he : 0 < o.eps) (hb : b.IsB) (h : floatLeReif o x y b) : b.val = 1 ↔ x.val ≤ y.val := by
  unfold floatLeReif floatLt at h
  have hv := hb.val_or
  have h1 := x.lb_le; have h2 := x.le_ub; have h3 := y.lb_le; have h4 := y.le_ub
  split_ifs at h with a a' d e f
  · rw [V.fix_eq a] at a'; tauto
  · rw [V.fix_eq a] at a'
    constructor
    · intro h'; exact absurd h' a'
    · intro h'; linarith
  · exact ⟨fun _ => by linarith, fun _ => h⟩
  · constructor
    · intro h'; omega
    · intro h'; linarith
  · have := floatLeReifVC_sound o _ b _ he hb h
    rwa [F.sub_val, sub_nonpos] at this
  · have := LeEps.sound he hb ((floatLeReifNopost_iff o _ _ b he hb).1 h)
    rwa [F.sub_val, F.const_val, sub_nonpos] at this

theorem floatLeReif_complete (he : 0 < o.eps) (hb : b.IsB) (ha : Apart o x.val y.val)
    (h : b.val = 1 ↔ x.val ≤ y.val) : floatLeReif o x y b := by
  unfold floatLeReif floatLt
  have hv := hb.val_or
  have h1 := x.lb_le; have h2 := x.le_ub; have h3 := y.lb_le; have h4 := y.le_ub
  have hle := LeEps.complete (t := b) he ha h
  split_ifs with a a' d e f
  · rw [V.fix_eq a] at a'; tauto
  · rw [V.fix_eq a] at a'
    have := hle.2 (by omega); linarith
  · exact h.2 (by linarith)
  · have : ¬ b.val = 1 := fun h' => by have := h.1 h'; linarith
    omega
  · exact floatLeReifVC_complete o _ b _ he hb ha.sub (by rw [F.sub_val, sub_nonpos]; exact h)
  · exact (floatLeReifNopost_iff o _ _ b he hb).2
      (by rw [F.sub_val, F.const_val]; exact LeEps.complete he ha.sub (by rw [sub_nonpos]; exact h))

theorem floatLtReif_sound (he : 0 < o.eps) (hb : b.IsB) (h : floatLtReif o x y b) : b.val = 1 ↔ x.val < y.val := by
  unfold floatLtReif floatLt at h
  have hv := hb.val_or
  have key : (b.val = 1 → x.val ≤ y.val - o.eps) → (b.val = 0 → y.val ≤ x.val) → (b.val = 1 ↔ x.val < y.val) := by
    intro k1 k2
    constructor
    · intro h'; have := k1 h'; linarith
    · intro h'; by_contra h''; have := k2 (by omega); linarith
  split_ifs at h with a a' d
  · rw [V.fix_eq a] at a'; exact key (fun _ => h) (fun h' => by omega)
  · rw [V.fix_eq a] at a'; exact key (fun h' => absurd h' a') (fun _ => h)
  · rw [F.sub_val, sub_nonneg, sub_le_neg] at h; exact key h.1 h.2
  · rw [auxFloatLtIf1_iff o x y b he hb, auxFloatGeIf0_iff o x y b hb] at h; exact key h.1 h.2

theorem floatLtReif_complete (he : 0 < o.eps) (hb : b.IsB) (ha : Apart o x.val y.val)
    (h : b.val = 1 ↔ x.val < y.val) : floatLtReif o x y b := by
  unfold floatLtReif floatLt
  have hv := hb.val_or
  have k1 : b.val = 1 → x.val ≤ y.val - o.eps := by
    intro h'
    have := h.1 h'
    rcases ha with h2 | h2 | h2
    · linarith
    · exact h2
    · linarith
  have k2 : b.val = 0 → y.val ≤ x.val := by
    intro h'
    by_contra h''
    push Not at h''
    have := h.2 h''; omega
  split_ifs with a a' d
  · rw [V.fix_eq a] at a'; exact k1 a'
  · rw [V.fix_eq a] at a'; exact k2 (by omega)
  · rw [F.sub_val, sub_nonneg, sub_le_neg]; exact ⟨k1, k2⟩
  · rw [auxFloatLtIf1_iff o x y b he hb, auxFloatGeIf0_iff o x y b hb]; exact ⟨k1, k2⟩

/-! ## Disequality and equality -/

theorem floatNeSimple_iff (he : 0 < o.eps) :
    floatNeSimple o x y ↔ x.val ≤ y.val - o.eps ∨ y.val + o.eps ≤ x.val := by
  unfold floatNeSimple
  rw [V.exists_bit (fun v => auxFloatLtIf1 o x y v ∧ auxFloatGtIf0 o x y v)]
  simp only [auxFloatLtIf1_iff o x _ _ he (V.bit_isB _), auxFloatGtIf0_iff o x _ _ he (V.bit_isB _), V.bit_val]
  simp
  rw [le_sub_iff_add_le]
  tauto

theorem floatNeC_iff (he : 0 < o.eps) : floatNeC o x c ↔ x.val ≤ c - o.eps ∨ c + o.eps ≤ x.val := by
  unfold floatNeC
  split_ifs
  · rfl
  · exact floatNeSimple_iff o x _ he

theorem floatNe_iff (he : 0 < o.eps) : floatNe o x y ↔ x.val ≤ y.val - o.eps ∨ y.val + o.eps ≤ x.val := by
  unfold floatNe
  split_ifs
  · rw [floatNeC_iff o _ _ he, F.sub_val]
    constructor <;> rintro (h | h) <;> first | (left; linarith) | (right; linarith)
  · rw [floatNeSimple_iff o _ _ he, F.sub_val, F.const_val]
    constructor <;> rintro (h | h) <;> first | (left; linarith) | (right; linarith)

/-- What the translation of `b <-> x = y` says exactly in its general case. -/
def EqEps (o : Opts) (a b : ℚ) (t : V) : Prop :=
  (t.val = 1 → a = b) ∧ (t.val = 0 → a ≤ b - o.eps ∨ b + o.eps ≤ a)

theorem EqEps.sound {o : Opts} {a b : ℚ} {t : V} (he : 0 < o.eps) (ht : t.IsB) (h : EqEps o a b t) :
    t.val = 1 ↔ a = b := by
  refine ⟨h.1, fun h' => ?_⟩
  by_contra h''
  rcases h.2 (by have := ht.val_or; omega) with h1 | h1 <;> linarith

theorem EqEps.complete {o : Opts} {a b : ℚ} {t : V} (ha : Apart o a b) (h : t.val = 1 ↔ a = b) : EqEps o a b t := by
  refine ⟨h.1, fun h0 => ?_⟩
  have h1 : ¬ a = b := fun h' => by have := h.2 h'; omega
  exact ha.resolve_left h1

theorem auxFloatEqIff1_sound (he : 0 < o.eps) (hp : p.IsB) (h : auxFloatEqIff1 o x y p) :
    p.val = 1 ↔ x.val = y.val := by
  unfold auxFloatEqIff1 at h
  have hb := hp.val_or
  split_ifs at h with a a' d e
  · rw [V.fix_eq a] at a'; exact ⟨fun _ => h, fun _ => a'⟩
  · rw [V.fix_eq a] at a'; rw [floatNe_iff o x y he] at h
    exact EqEps.sound he hp ⟨fun h' => absurd h' a', fun _ => h⟩
  · obtain ⟨q1, q2, h1, h2, h3, h4, h5⟩ := h
    rw [auxFloatLeIf1_iff o x y p hp] at h1
    rw [auxFloatGeIf1_iff o x y p hp] at h2
    rw [auxFloatLtIf0_iff o x y _ he (V.bit_isB _)] at h3
    rw [auxFloatGtIf0_iff o x y _ he (V.bit_isB _)] at h4
    refine EqEps.sound he hp ⟨fun h' => le_antisymm (h1 h') (h2 h'), fun h' => ?_⟩
    cases q1 <;> cases q2 <;> simp at h3 h4 h5
    · omega
    · exact Or.inl h3
    · exact Or.inr (by linarith)
    · omega
  · obtain ⟨q1, q2, h1, h2, h3⟩ := h
    have h1 := floatLeReif_sound o _ _ _ he (V.bit_isB _) h1
    have h2 := floatLeReif_sound o _ _ _ he (V.bit_isB _) h2
    constructor
    · intro h'
      cases q1 <;> cases q2 <;> simp [h'] at h1 h2 h3
      exact le_antisymm h1 h2
    · intro h'
      cases q1 <;> cases q2 <;> simp [h'] at h1 h2 h3
      omega

theorem auxFloatEqIff1_complete (he : 0 < o.eps) (hp : p.IsB) (ho : p.fixed ∨ ¬ (o.post = true ∧ o.diff = true))
    (ha : Apart o x.val y.val) (h : p.val = 1 ↔ x.val = y.val) : auxFloatEqIff1 o x y p := by
  unfold auxFloatEqIff1
  have hb := hp.val_or
  have hq := EqEps.complete (t := p) ha h
  split_ifs with a a' d e
  · rw [V.fix_eq a] at a'; exact h.1 a'
  · rw [V.fix_eq a] at a'; rw [floatNe_iff o x y he]
    exact hq.2 (by omega)
  · exfalso
    simp only [Bool.and_eq_true] at d
    rcases ho with h | h
    · exact a h
    · exact h d
  · refine ⟨decide (y.val ≤ x.val), decide (x.val ≤ y.val), ?_⟩
    rw [auxFloatLeIf1_iff o x y p hp, auxFloatGeIf1_iff o x y p hp, auxFloatLtIf0_iff o x y _ he (V.bit_isB _),
      auxFloatGtIf0_iff o x y _ he (V.bit_isB _)]
    refine ⟨fun h' => (h.1 h').le, fun h' => (h.1 h').ge, ?_, ?_, ?_⟩
    · intro h'
      have : ¬ y.val ≤ x.val := by simpa using h'
      rcases ha with h2 | h2 | h2
      · exact absurd h2.ge this
      · exact h2
      · exfalso; exact this (by linarith)
    · intro h'
      have : ¬ x.val ≤ y.val := by simpa using h'
      rcases ha with h2 | h2 | h2
      · exact absurd h2.le this
      · exfalso; exact this (by linarith)
      · linarith
    · by_cases h' : x.val = y.val
      · rw [h.2 h']; simp [h']
      · have h0 : p.val = 0 := by have := h.1; rcases hb with h1 | h1; exacts [h1, absurd (h.1 h1) h']
        rw [h0]
        rcases lt_or_gt_of_ne h' with h2 | h2
        · simp [h2.le, h2]
        · simp [h2.le, h2]
  · refine ⟨decide (x.val ≤ y.val), decide (y.val ≤ x.val), ?_, ?_, ?_⟩
    · exact floatLeReif_complete o _ _ _ he (V.bit_isB _) ha (by simp)
    · exact floatLeReif_complete o _ _ _ he (V.bit_isB _) ha.symm (by simp)
    · by_cases h' : x.val = y.val
      · rw [h.2 h']; simp [h']
      · have h0 : p.val = 0 := by have := h.1; rcases hb with h1 | h1; exacts [h1, absurd (h.1 h1) h']
        rw [h0]
        rcases lt_or_gt_of_ne h' with h2 | h2
        · simp [h2.le, h2]
        · simp [h2.le, h2]

theorem sub_eps (a b e : ℚ) : (a - b ≤ -e ∨ e ≤ a - b) ↔ (a ≤ b - e ∨ b + e ≤ a) := by
  constructor <;> rintro (h | h) <;> first | (left; linarith) | (right; linarith)

theorem floatEqReif_sound (he : 0 < o.eps) (hb : b.IsB) (h : floatEqReif o x y b) : b.val = 1 ↔ x.val = y.val := by
  unfold floatEqReif at h
  have hv := hb.val_or
  have h1 := x.lb_le; have h2 := x.le_ub; have h3 := y.lb_le; have h4 := y.le_ub
  split_ifs at h with a a' d e f
  · rw [V.fix_eq a] at a'; exact ⟨fun _ => h, fun _ => a'⟩
  · rw [V.fix_eq a] at a'; rw [floatNe_iff o x y he] at h
    exact EqEps.sound he hb ⟨fun h' => absurd h' a', fun _ => h⟩
  · constructor
    · intro h'; omega
    · intro h'; rcases d with d | d <;> linarith
  · rwa [F.fix_eq e.1, F.fix_eq e.2] at h
  · rw [F.sub_val, sub_eps, sub_eq_zero] at h
    exact EqEps.sound he hb h
  · exact auxFloatEqIff1_sound o x y b he hb h

theorem floatEqReif_complete (he : 0 < o.eps) (hb : b.IsB) (ha : Apart o x.val y.val) (h : b.val = 1 ↔ x.val = y.val) :
    floatEqReif o x y b := by
  unfold floatEqReif
  have hv := hb.val_or
  have h1 := x.lb_le; have h2 := x.le_ub; have h3 := y.lb_le; have h4 := y.le_ub
  have hq := EqEps.complete (t := b) ha h
  split_ifs with a a' d e f
  · rw [V.fix_eq a] at a'; exact h.1 a'
  · rw [V.fix_eq a] at a'; rw [floatNe_iff o x y he]
    exact hq.2 (by omega)
  · have : ¬ b.val = 1 := fun h' => by have := h.1 h'; rcases d with d | d <;> linarith
    omega
  · rwa [F.fix_eq e.1, F.fix_eq e.2]
  · rw [F.sub_val, sub_eps, sub_eq_zero]; exact hq
  · exact auxFloatEqIff1_complete o x y b he hb (Or.inr (by simpa using f)) ha h

theorem inv_one {p : V} (hp : p.IsB) : p.inv.val = 1 ↔ ¬ p.val = 1 := by
  rw [V.inv_val]; have := hp.val_or; omega

theorem floatNeReif_sound (he : 0 < o.eps) (hb : b.IsB) (h : floatNeReif o x y b) : b.val = 1 ↔ x.val ≠ y.val := by
  have := floatEqReif_sound o x y _ he hb.inv h
  rw [inv_one hb] at this
  tauto

theorem floatNeReif_complete (he : 0 < o.eps) (hb : b.IsB) (ha : Apart o x.val y.val)
    (h : b.val = 1 ↔ x.val ≠ y.val) : floatNeReif o x y b := by
  refine floatEqReif_complete o x y _ he hb.inv ha ?_
  rw [inv_one hb]
  tauto

/-! ## Half-reified -/

theorem floatLeImp_iff (hb : b.IsB) : floatLeImp o x y b ↔ (b.val = 1 → x.val ≤ y.val) := by
  unfold floatLeImp
  have h := hb.val_or
  have h1 := x.lb_le; have h2 := x.le_ub; have h3 := y.lb_le; have h4 := y.le_ub
  split_ifs with a a' d e
  · rw [V.fix_eq a] at a'; tauto
  · rw [V.fix_eq a] at a'; tauto
  · exact ⟨fun _ _ => by linarith, fun _ => trivial⟩
  · constructor
    · intro h h'; omega
    · intro h; by_contra h'; have := h (by omega); linarith
  · exact auxFloatLeIf1_iff o x y b hb

theorem floatLtImp_iff (he : 0 < o.eps) (hb : b.IsB) :
    floatLtImp o x y b ↔ (b.val = 1 → x.val ≤ y.val - o.eps) := by
  unfold floatLtImp floatLt
  have h := hb.val_or
  split_ifs with a a'
  · rw [V.fix_eq a] at a'; tauto
  · rw [V.fix_eq a] at a'; tauto
  · exact auxFloatLtIf1_iff o x y b he hb

theorem floatEqImp_iff (hb : b.IsB) : floatEqImp o x y b ↔ (b.val = 1 → x.val = y.val) := by
  unfold floatEqImp
  have h := hb.val_or
  have h1 := x.lb_le; have h2 := x.le_ub; have h3 := y.lb_le; have h4 := y.le_ub
  split_ifs with a a' d e
  · rw [V.fix_eq a] at a'; tauto
  · rw [V.fix_eq a] at a'; tauto
  · constructor
    · intro h h'; omega
    · intro h; by_contra h'; have := h (by omega); rcases d with d | d <;> linarith
  · rw [F.fix_eq e.1, F.fix_eq e.2]
  · exact auxFloatEqIf1_iff o x y b hb

theorem auxFloatNeIf1_sound (he : 0 < o.eps) (hp : p.IsB) (h : auxFloatNeIf1 o x y p) :
    p.val = 1 → x.val ≠ y.val := by
  unfold auxFloatNeIf1 at h
  have hb := hp.val_or
  intro h1
  split_ifs at h with a a' d e f g
  · rw [floatNe_iff o x y he] at h
    rcases h with h | h <;> intro h' <;> linarith
  · rw [V.fix_eq a] at a'; exact absurd h1 a'
  · omega
  · rwa [F.fix_eq d.1, F.fix_eq d.2] at e
  · omega
  · rwa [F.fix_eq f, F.sub_val, sub_eq_zero] at g
  · obtain ⟨q1, q2, h2, h3, h4⟩ := h
    rw [floatLtImp_iff o _ _ _ he (V.bit_isB _)] at h2 h3
    cases q1 <;> cases q2 <;> simp [h1] at h2 h3 h4 <;> intro h' <;> linarith

theorem auxFloatNeIf1_complete (he : 0 < o.eps) (hp : p.IsB) (ha : Apart o x.val y.val)
    (h : p.val = 1 → x.val ≠ y.val) : auxFloatNeIf1 o x y p := by
  unfold auxFloatNeIf1
  have hb := hp.val_or
  split_ifs with a a' d e f g
  · rw [V.fix_eq a] at a'
    rw [floatNe_iff o x y he]
    exact ha.resolve_left (h a')
  · rw [F.fix_eq d.1, F.fix_eq d.2] at e
    rcases hb with h' | h'; exacts [h', absurd e (h h')]
  · rw [F.fix_eq f, F.sub_val, sub_eq_zero] at g
    rcases hb with h' | h'; exacts [h', absurd g (h h')]
  · rcases hb with h0 | h0
    · refine ⟨false, false, ?_, ?_, ?_⟩
      · rw [floatLtImp_iff o _ _ _ he (V.bit_isB _)]; simp
      · rw [floatLtImp_iff o _ _ _ he (V.bit_isB _)]; simp
      · simp [h0]
    · rcases ha.resolve_left (h h0) with h' | h'
      · refine ⟨true, false, ?_, ?_, ?_⟩
        · rw [floatLtImp_iff o _ _ _ he (V.bit_isB _)]; intro _; exact h'
        · rw [floatLtImp_iff o _ _ _ he (V.bit_isB _)]; simp
        · simp [h0]
      · refine ⟨false, true, ?_, ?_, ?_⟩
        · rw [floatLtImp_iff o _ _ _ he (V.bit_isB _)]; simp
        · rw [floatLtImp_iff o _ _ _ he (V.bit_isB _)]; intro _; linarith
        · simp [h0]

theorem floatNeImp_sound (he : 0 < o.eps) (hb : b.IsB) (h : floatNeImp o x y b) : b.val = 1 → x.val ≠ y.val := by
  unfold floatNeImp at h
  have h1 := x.lb_le; have h2 := x.le_ub; have h3 := y.lb_le; have h4 := y.le_ub
  intro h5
  split_ifs at h with a a' d e
  · rw [floatNe_iff o x y he] at h
    rcases h with h | h <;> intro h' <;> linarith
  · rw [V.fix_eq a] at a'; exact absurd h5 a'
  · intro h'; rcases d with d | d <;> linarith
  · have := h h5; rwa [F.fix_eq e.1, F.fix_eq e.2] at this
  · exact auxFloatNeIf1_sound o x y b he hb h h5

theorem floatNeImp_complete (he : 0 < o.eps) (hb : b.IsB) (ha : Apart o x.val y.val)
    (h : b.val = 1 → x.val ≠ y.val) : floatNeImp o x y b := by
  unfold floatNeImp
  split_ifs with a a' d e
  · rw [V.fix_eq a] at a'
    rw [floatNe_iff o x y he]
    exact ha.resolve_left (h a')
  · rw [F.fix_eq e.1, F.fix_eq e.2]; exact h
  · exact auxFloatNeIf1_complete o x y b he hb ha h

end MZ.LinLib
