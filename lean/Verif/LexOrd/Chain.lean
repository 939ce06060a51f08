import Verif.LexOrd.Prec

/-! # Lemmas on `value_precede_chain`, on optional elements and on symmetries -/

namespace MZ.LexOrd
open MZ.Globals MZ.LexOrd.Spec

/-- Up to `d` the values of `order` occur once; `d` itself is repeated, if it exists. -/
structure Threshold (order : Arr Int) (d : Int) : Prop where
  lo : order.lo ≤ d
  hi : d ≤ order.hi + 1
  single : ∀ i ∈ order.idx, i < d → ∀ j ∈ order.idx, order j = order i → j = i
  double : d ≤ order.hi → ∃ e ∈ order.idx, d < e ∧ order e = order d

theorem threshold_ex (order : Arr Int) (hne : order.lo ≤ order.hi) : ∃ d, Threshold order d := by
  by_cases hdup : ∃ k : Nat, order.lo + k ≤ order.hi ∧ ∃ e ∈ order.idx, order.lo + (k : Int) ≠ e ∧ order e = order (order.lo + k)
  · classical
    have hmin := fun k => Nat.find_min hdup (m := k)
    obtain ⟨h1, e, he, hne', heq⟩ := Nat.find_spec hdup
    refine ⟨order.lo + (Nat.find hdup : Int), by omega, by omega, ?_, fun _ => ⟨e, he, ?_, heq⟩⟩
    · intro i hi hlt j hj hji
      rw [Arr.mem_idx] at hi
      by_contra hc
      apply hmin (i - order.lo).toNat (by omega)
      rw [show order.lo + ((i - order.lo).toNat : Int) = i by omega]
      exact ⟨hi.2, j, hj, fun h => hc h.symm, hji⟩
    · by_contra hc
      rw [Arr.mem_idx] at he
      apply hmin (e - order.lo).toNat (by omega)
      rw [show order.lo + ((e - order.lo).toNat : Int) = e by omega]
      exact ⟨he.2, order.lo + (Nat.find hdup : Int), (Arr.mem_idx _ _).2 (by omega), fun h => hne' h.symm, heq.symm⟩
  · refine ⟨order.hi + 1, by omega, by omega, ?_, fun h => absurd h (by omega)⟩
    intro i hi _ j hj hji
    rw [Arr.mem_idx] at hi
    by_contra hc
    apply hdup
    refine ⟨(i - order.lo).toNat, by omega, j, hj, ?_, ?_⟩
    · omega
    · rw [show order.lo + ((i - order.lo).toNat : Int) = i by omega]; exact hji

theorem chainPos_absent {order : Arr Int} {v : Int} (h : ∀ i ∈ order.idx, order i ≠ v) : chainPos order v = 0 := by
  unfold chainPos
  rw [Finset.filter_eq_empty_iff.2 (fun i hi => h i hi)]
  rfl

theorem chainPos_single {order : Arr Int} {i : Int} (hi : i ∈ order.idx)
    (h : ∀ j ∈ order.idx, order j = order i → j = i) : chainPos order (order i) = i - order.lo + 1 := by
  unfold chainPos
  have : order.idx.filter (fun j => order j = order i) = {i} := by
    ext j
    rw [Finset.mem_filter, Finset.mem_singleton]
    constructor
    · rintro ⟨h1, h2⟩; exact h j h1 h2
    · rintro rfl; exact ⟨hi, rfl⟩
  rw [this, Finset.sum_singleton]
  omega

theorem chainPos_term_nonneg (order : Arr Int) (v : Int) :
    ∀ i ∈ order.idx.filter (fun i => order i = v), 0 ≤ i - (order.lo - 1) := by
  intro i hi
  rw [Finset.mem_filter, Arr.mem_idx] at hi
  omega

theorem chainPos_nonneg (order : Arr Int) (v : Int) : 0 ≤ chainPos order v :=
  Finset.sum_nonneg (chainPos_term_nonneg order v)

theorem chainPos_ge {order : Arr Int} {i v : Int} (hi : i ∈ order.idx) (h : order i = v) :
    i - order.lo + 1 ≤ chainPos order v := by
  have := Finset.single_le_sum (chainPos_term_nonneg order v) (Finset.mem_filter.2 ⟨hi, h⟩)
  unfold chainPos
  omega

theorem chainPos_ge2 {order : Arr Int} {i j v : Int} (hi : i ∈ order.idx) (h : order i = v)
    (hj : j ∈ order.idx) (h' : order j = v) (hij : i < j) :
    i - order.lo + 1 < chainPos order v := by
  have hsub : ({i, j} : Finset Int) ⊆ order.idx.filter (fun i => order i = v) := by
    intro k hk
    rw [Finset.mem_insert, Finset.mem_singleton] at hk
    rcases hk with rfl | rfl
    · exact Finset.mem_filter.2 ⟨hi, h⟩
    · exact Finset.mem_filter.2 ⟨hj, h'⟩
  have := Finset.sum_le_sum_of_subset_of_nonneg hsub (f := fun i => i - (order.lo - 1))
    (fun k hk _ => chainPos_term_nonneg order v k hk)
  rw [Finset.sum_pair (by omega)] at this
  unfold chainPos
  rw [Arr.mem_idx] at hi hj
  omega

theorem chainPos_cases {order : Arr Int} {d : Int} (hd : Threshold order d) (v : Int) :
    ((∀ i ∈ order.idx, order i ≠ v) ∧ chainPos order v = 0) ∨
    (∃ i ∈ order.idx, i < d ∧ order i = v ∧ chainPos order v = i - order.lo + 1) ∨
    (d ≤ order.hi ∧ d - order.lo + 1 < chainPos order v ∧ ∀ i ∈ order.idx, order i = v → d ≤ i) := by
  by_cases h0 : ∃ i ∈ order.idx, order i = v
  · by_cases h1 : ∃ i ∈ order.idx, i < d ∧ order i = v
    · obtain ⟨i, hi, hlt, rfl⟩ := h1
      exact Or.inr (Or.inl ⟨i, hi, hlt, rfl, chainPos_single hi (hd.single i hi hlt)⟩)
    · right; right
      have hge : ∀ i ∈ order.idx, order i = v → d ≤ i := by
        intro i hi hv
        by_contra hc
        exact h1 ⟨i, hi, by omega, hv⟩
      obtain ⟨i, hi, hv⟩ := h0
      have hdi := hge i hi hv
      have hi' := (Arr.mem_idx _ _).1 hi
      refine ⟨by omega, ?_, hge⟩
      rcases lt_or_eq_of_le hdi with hlt | heq
      · have := chainPos_ge hi hv; omega
      · subst heq
        obtain ⟨e, he, hlt, hve⟩ := hd.double hi'.2
        exact chainPos_ge2 hi hv he (hve.trans hv) hlt
  · left
    have : ∀ i ∈ order.idx, order i ≠ v := fun i hi hv => h0 ⟨i, hi, hv⟩
    exact ⟨this, chainPos_absent this⟩

/-- From an element at position `i` of the order one gets back to any earlier position. -/
theorem chain_down {order xs : Arr Int} (h : ValuePrecedeChain order xs) (n : Nat) :
    ∀ i ∈ order.idx, i - n ∈ order.idx → ∀ k ∈ xs.idx, xs k = order i →
      ∃ j ∈ xs.idx, (0 < n → j < k) ∧ j ≤ k ∧ xs j = order (i - n) := by
  induction n with
  | zero =>
    intro i hi _ k hk hxk
    exact ⟨k, hk, fun h => absurd h (lt_irrefl _), le_refl _, by simpa using hxk⟩
  | succ n ih =>
    intro i hi hin k hk hxk
    rw [Arr.mem_idx] at hi hin
    have e : i - 1 + 1 = i := by omega
    obtain ⟨j, hj, hjk, hxj⟩ := h (i - 1) ((Arr.mem_idx _ _).2 (by omega)) ((Arr.mem_idx _ _).2 (by omega)) k hk
      (by rw [e]; exact hxk)
    obtain ⟨j', hj', _, hjj, hxj'⟩ := ih (i - 1) ((Arr.mem_idx _ _).2 (by omega)) ((Arr.mem_idx _ _).2 (by omega)) j hj hxj
    exact ⟨j', hj', fun _ => by omega, by omega, by rw [hxj', show i - 1 - (n : Int) = i - ((n + 1 : Nat) : Int) by omega]⟩

/-- A repeated value of the order, and everything after it, cannot occur. -/
theorem chain_no_dup {order xs : Arr Int} (h : ValuePrecedeChain order xs) {d e : Int} (hd : d ∈ order.idx)
    (he : e ∈ order.idx) (hde : d < e) (heq : order e = order d) :
    ∀ k ∈ xs.idx, xs k ≠ order d := by
  have key : ∀ n : Nat, xs.lo + n ≤ xs.hi → xs (xs.lo + n) ≠ order d := by
    intro n
    induction n using Nat.strong_induction_on with
    | _ n ih =>
      intro hn hx
      obtain ⟨j, hj, hlt, _, hxj⟩ := chain_down h (e - d).toNat e he
        (by rw [show e - ((e - d).toNat : Int) = d by omega]; exact hd) (xs.lo + n)
        ((Arr.mem_idx _ _).2 (by omega)) (hx.trans heq.symm)
      rw [show e - ((e - d).toNat : Int) = d by omega] at hxj
      have := hlt (by omega)
      rw [Arr.mem_idx] at hj
      refine ih (j - xs.lo).toNat (by omega) (by omega) ?_
      rw [show xs.lo + ((j - xs.lo).toNat : Int) = j by omega]
      exact hxj
  intro k hk
  rw [Arr.mem_idx] at hk
  have := key (k - xs.lo).toNat (by omega)
  rwa [show xs.lo + ((k - xs.lo).toNat : Int) = k by omega] at this

theorem seq_down {xs : Arr Int} (h : SeqPrecede xs) (n : Nat) : ∀ k ∈ xs.idx, 1 ≤ xs k - n →
    ∃ j ∈ xs.idx, j ≤ k ∧ xs j = xs k - n := by
  induction n with
  | zero => intro k hk _; exact ⟨k, hk, le_refl _, by simp⟩
  | succ n ih =>
    intro k hk h1
    obtain ⟨j, hj, hjk, hxj⟩ := ih k hk (by omega)
    obtain ⟨j', hj', hlt, hx⟩ := h (xs j - 1) (by omega) j hj (by omega)
    exact ⟨j', hj', by omega, by rw [hx, hxj]; omega⟩

/-- The mapped array `Y` has its values in order exactly if `xs` respects `order`. -/
theorem chain_iff (order xs : Arr Int) (hne : order.lo ≤ order.hi) :
    ((∀ k ∈ xs.idx, 0 ≤ chainPos order (xs k) ∧ chainPos order (xs k) ≤ order.len) ∧
      SeqPrecede ⟨xs.lo, xs.hi, fun i => chainPos order (xs i)⟩) ↔ ValuePrecedeChain order xs := by
  obtain ⟨d, hd⟩ := threshold_ex order hne
  have hlen := len_eq_length order
  have hlen2 := length_elems order
  constructor
  · rintro ⟨_, hseq⟩
    -- no element reaches the threshold
    have hlow : ∀ k ∈ xs.idx, chainPos order (xs k) < d - order.lo + 1 := by
      intro k hk
      by_contra hc
      have hdlo := hd.lo
      obtain ⟨j, hj, _, hx⟩ := seq_down hseq (chainPos order (xs k) - (d - order.lo + 1)).toNat k hk
        (by dsimp only; omega)
      dsimp only at hx
      rcases chainPos_cases hd (xs j) with ⟨_, h⟩ | ⟨i, hi, hlt, _, h⟩ | ⟨_, h, _⟩ <;> omega
    intro i hi hi1 k hk hxk
    have hi' := (Arr.mem_idx _ _).1 hi
    have hk1 := hlow k hk
    rcases chainPos_cases hd (xs k) with ⟨h, _⟩ | ⟨i', hi2, hlt, hv, h⟩ | ⟨_, h, _⟩
    · exact absurd hxk.symm (h _ hi1)
    · have e : i + 1 = i' := hd.single i' hi2 hlt _ hi1 (hxk.symm.trans hv.symm)
      subst e
      obtain ⟨j, hj, hjk, hYj⟩ := hseq (i - order.lo + 1) (by omega) k hk (by dsimp only; omega)
      dsimp only at hYj
      refine ⟨j, hj, hjk, ?_⟩
      rcases chainPos_cases hd (xs j) with ⟨_, h'⟩ | ⟨i2, hi2', hlt', hv', h'⟩ | ⟨_, h', _⟩
      · omega
      · obtain rfl : i2 = i := by omega
        exact hv'.symm
      · omega
    · omega
  · intro h
    have hlow : ∀ k ∈ xs.idx, chainPos order (xs k) = 0 ∧ (∀ i ∈ order.idx, order i ≠ xs k) ∨
        ∃ i ∈ order.idx, i < d ∧ order i = xs k ∧ chainPos order (xs k) = i - order.lo + 1 := by
      intro k hk
      rcases chainPos_cases hd (xs k) with h' | h' | ⟨hdh, h1, h2⟩
      · exact Or.inl ⟨h'.2, h'.1⟩
      · exact Or.inr h'
      · exfalso
        have hpos : ∃ i ∈ order.idx, order i = xs k := by
          by_contra hc
          have : chainPos order (xs k) = 0 := chainPos_absent (fun i hi hv => hc ⟨i, hi, hv⟩)
          have := hd.lo
          omega
        obtain ⟨i, hi, hv⟩ := hpos
        have hdi := h2 i hi hv
        obtain ⟨e, he, hlt, hve⟩ := hd.double hdh
        have hdm : d ∈ order.idx := (Arr.mem_idx _ _).2 ⟨hd.lo, hdh⟩
        obtain ⟨j, hj, _, _, hxj⟩ := chain_down h (i - d).toNat i hi
          (by rw [show i - ((i - d).toNat : Int) = d by omega]; exact hdm) k hk hv.symm
        rw [show i - ((i - d).toNat : Int) = d by omega] at hxj
        exact chain_no_dup h hdm he hlt hve j hj hxj
    constructor
    · intro k hk
      refine ⟨chainPos_nonneg _ _, ?_⟩
      rcases hlow k hk with ⟨h0, _⟩ | ⟨i, hi, _, _, h0⟩
      · rw [h0]; exact len_nonneg _
      · rw [Arr.mem_idx] at hi
        omega
    · intro v hv k hk hYk
      dsimp only at hYk
      have hk' : k ∈ xs.idx := hk
      rcases hlow k hk' with ⟨h0, _⟩ | ⟨i, hi, hlt, hiv, h0⟩
      · omega
      · rw [Arr.mem_idx] at hi
        have hi1 : i - 1 ∈ order.idx := (Arr.mem_idx _ _).2 (by omega)
        obtain ⟨j, hj, hjk, hxj⟩ := h (i - 1) hi1
          (by rw [show i - 1 + 1 = i by omega]; exact (Arr.mem_idx _ _).2 hi) k hk'
          (by dsimp only; rw [show i - 1 + 1 = i by omega]; exact hiv.symm)
        refine ⟨j, hj, hjk, ?_⟩
        dsimp only
        rw [hxj, chainPos_single hi1 (hd.single _ hi1 (by omega))]
        omega

/-- The shortcut for `order = 1..n`. -/
theorem chain_shortcut (order xs : Arr Int) (hne : order.lo ≤ order.hi) (h1 : order.lo = 1)
    (hid : ∀ i ∈ order.idx, order i = i) (hu : ∀ k ∈ xs.idx, xs k ≤ maxOf order.idx order) :
    SeqPrecede xs ↔ ValuePrecedeChain order xs := by
  have hmax : maxOf order.idx order ≤ order.hi := by
    obtain ⟨i, hi, h⟩ := maxOf_mem (S := order.idx) (f := order) ⟨order.lo, (Arr.mem_idx _ _).2 ⟨le_refl _, hne⟩⟩
    rw [h, hid i hi]
    exact ((Arr.mem_idx _ _).1 hi).2
  constructor
  · intro h i hi hi1
    rw [hid i hi, hid _ hi1]
    rw [Arr.mem_idx] at hi
    exact h i (by omega)
  · intro h v hv k hk hxk
    have := hu k hk
    have hv1 : v ∈ order.idx := (Arr.mem_idx _ _).2 (by omega)
    have hv2 : v + 1 ∈ order.idx := (Arr.mem_idx _ _).2 (by omega)
    have := h v hv1 hv2
    rw [hid v hv1, hid _ hv2] at this
    exact this k hk hxk

theorem lastPresent_ex (xx : Arr (Option Int)) (start : Int) : ∃ y, lastPresent xx start y := by
  let f : Nat → Int := fun n => Nat.rec 0 (fun k p =>
    if (xx ((k + 1 : Nat) : Int)).isSome then (xx ((k + 1 : Nat) : Int)).getD 0 else if k = 0 then start else p) n
  refine ⟨fun i => f i.toNat, ?_⟩
  intro i h1 h2
  dsimp only
  obtain ⟨k, rfl⟩ : ∃ k : Nat, i = ((k + 1 : Nat) : Int) := ⟨(i - 1).toNat, by omega⟩
  have e1 : ((k + 1 : Nat) : Int).toNat = k + 1 := by omega
  have e2 : (((k + 1 : Nat) : Int) - 1).toNat = k := by omega
  rw [e1, e2]
  show (if (xx ((k + 1 : Nat) : Int)).isSome then (xx ((k + 1 : Nat) : Int)).getD 0 else if k = 0 then start else f k) = _
  by_cases hk : k = 0
  · subst hk; rfl
  · rw [if_neg hk, if_neg (show ¬ ((k + 1 : Nat) : Int) = 1 by omega)]

theorem lastPresent_spec {xx : Arr (Option Int)} {start : Int} {y : Int → Int} (hy : lastPresent xx start y) :
    ∀ n : Nat, 1 ≤ n → (n : Int) ≤ xx.len →
      (∃ k : Int, 1 ≤ k ∧ k ≤ n ∧ xx k = some (y n) ∧ ∀ j, k < j → j ≤ n → xx j = none) ∨
      (y n = start ∧ ∀ j : Int, 1 ≤ j → j ≤ n → xx j = none) := by
  intro n hn
  induction n, hn using Nat.le_induction with
  | base =>
    intro h
    have := hy 1 (by omega) h
    cases hx : xx 1 with
    | none =>
      right
      rw [hx] at this
      simp at this
      refine ⟨by simpa using this, fun j h1 h2 => ?_⟩
      obtain rfl : j = 1 := by push_cast at h2; omega
      exact hx
    | some a =>
      left
      rw [hx] at this
      simp at this
      refine ⟨1, le_refl _, by simp, ?_, fun j h1 h2 => ?_⟩
      · rw [hx]; simp [this]
      · push_cast at h2; omega
  | succ n hn ih =>
    intro h
    have := hy ((n + 1 : Nat) : Int) (by omega) h
    cases hx : xx ((n + 1 : Nat) : Int) with
    | none =>
      rw [hx, if_neg (by simp), if_neg (by omega), show ((n + 1 : Nat) : Int) - 1 = (n : Int) by omega] at this
      rw [this]
      rcases ih (by omega) with ⟨k, h1, h2, h3, h4⟩ | ⟨h1, h2⟩
      · left
        refine ⟨k, h1, by omega, h3, fun j hj1 hj2 => ?_⟩
        rcases lt_or_eq_of_le hj2 with hl | he
        · exact h4 j hj1 (by omega)
        · rw [he]; exact hx
      · right
        refine ⟨h1, fun j hj1 hj2 => ?_⟩
        rcases lt_or_eq_of_le hj2 with hl | he
        · exact h2 j hj1 (by omega)
        · rw [he]; exact hx
    | some a =>
      left
      rw [hx] at this
      simp at this
      refine ⟨((n + 1 : Nat) : Int), by omega, le_refl _, ?_, fun j h1 h2 => absurd h2 (by omega)⟩
      rw [hx]; congr 1; push_cast; exact this.symm

/-- The chain through the last present value, for `≤` and `<`. -/
theorem opt_chain {R : Int → Int → Prop} (ht : ∀ a b c, R a b → R b c → R a c) (xx : Arr (Option Int)) (start : Int)
    (hstart : ∀ i, 1 ≤ i → i ≤ xx.len → ∀ a, xx i = some a → R start a) {y : Int → Int} (hy : lastPresent xx start y) :
    (∀ i, 2 ≤ i → i ≤ xx.len → (xx i).isSome → R (y (i - 1)) ((xx i).getD 0)) ↔
    (∀ i j, 1 ≤ i → i < j → j ≤ xx.len → ∀ a b, xx i = some a → xx j = some b → R a b) := by
  have hsp := lastPresent_spec hy
  constructor
  · intro h
    have key : ∀ n : Nat, ∀ i j : Int, 1 ≤ i → i < j → j ≤ n → j ≤ xx.len → ∀ a b, xx i = some a → xx j = some b → R a b := by
      intro n
      induction n with
      | zero => intro i j h1 h2 h3; push_cast at h3; omega
      | succ n ih =>
        intro i j h1 h2 h3 h4 a b ha hb
        have hR := h j (by omega) h4 (by rw [hb]; rfl)
        rw [hb] at hR
        simp only [Option.getD_some] at hR
        have e : ((j - 1).toNat : Int) = j - 1 := by omega
        rcases hsp (j - 1).toNat (by omega) (by omega) with ⟨k, g1, g2, g3, g4⟩ | ⟨_, g2⟩
        · rw [e] at g2 g3 g4
          rcases lt_trichotomy i k with hik | hik | hik
          · exact ht _ _ _ (ih i k h1 hik (by omega) (by omega) a _ ha g3) hR
          · subst hik
            rw [ha] at g3
            rw [Option.some.inj g3]; exact hR
          · exact absurd (g4 i hik (by omega)) (by rw [ha]; simp)
        · rw [e] at g2
          exact absurd (g2 i h1 (by omega)) (by rw [ha]; simp)
    intro i j h1 h2 h3
    exact key j.toNat i j h1 h2 (by omega) h3
  · intro h i h2 hl hs
    obtain ⟨b, hb⟩ := Option.isSome_iff_exists.1 hs
    rw [hb, Option.getD_some]
    have e : ((i - 1).toNat : Int) = i - 1 := by omega
    rcases hsp (i - 1).toNat (by omega) (by omega) with ⟨k, g1, g2, g3, g4⟩ | ⟨g1, g2⟩
    · rw [e] at g2 g3
      exact h k i g1 (by omega) hl _ _ g3 hb
    · rw [e] at g1
      rw [g1]; exact hstart i (by omega) hl b hb

theorem compr_pairs {R : Int → Int → Prop} (xs : Arr (Option Int)) :
    (∀ i j, 1 ≤ i → i < j → j ≤ (xs.compr id).len → ∀ a b, (xs.compr id) i = some a → (xs.compr id) j = some b → R a b) ↔
    (∀ i ∈ xs.idx, ∀ j ∈ xs.idx, i < j → ∀ a b, xs i = some a → xs j = some b → R a b) := by
  have h1 := len_eq_length xs
  have h2 := length_elems xs
  have h3 := len_eq_length (xs.compr id)
  rw [elems_compr] at h3
  constructor
  · intro h i hi j hj hij a b ha hb
    rw [Arr.mem_idx] at hi hj
    refine h (i - xs.lo + 1) (j - xs.lo + 1) (by omega) (by omega) (by omega) a b ?_ ?_
    · simp only [Arr.compr, id]; rwa [show xs.lo + (i - xs.lo + 1) - 1 = i by omega]
    · simp only [Arr.compr, id]; rwa [show xs.lo + (j - xs.lo + 1) - 1 = j by omega]
  · intro h i j hi hij hj a b ha hb
    exact h (xs.lo + i - 1) ((Arr.mem_idx _ _).2 (by omega)) (xs.lo + j - 1) ((Arr.mem_idx _ _).2 (by omega)) (by omega) a b ha hb

end MZ.LexOrd
