import Verif.LinGlob.Model
import Verif.LinArith.Sets
import Verif.Count.Spec
import Verif.Chan.Spec
import Verif.Ext.Spec
import Verif.LexOrd.Props
import Verif.LinLib.Flt

/-! # Lemmas: all different, conditionals, lexicographic order, table, clause -/

namespace MZ.LinGlob

open MZ.Globals MZ.LinLib MZ.LinArith MZ.LexOrd.Spec

variable (o : Opts)

theorem vals_idx (xs : Arr V) : (vals xs).idx = xs.idx := rfl
theorem vals_val (xs : Arr V) (i : Int) : (vals xs).val i = (xs i).val := rfl

theorem mem_encRange {xs : Arr V} {i : Int} (hi : i ∈ xs.idx) : (xs i).val ∈ encRange xs := by
  unfold encRange
  rw [Finset.mem_Icc]
  exact ⟨(minOf_le (f := fun i => (xs i).lb) hi).trans (xs i).lb_le,
    (xs i).le_ub.trans (le_maxOf (f := fun i => (xs i).ub) hi)⟩

theorem sum_enc_card {xs : Arr V} {p : Int → Int → Int} (hp : EqEncodeArr o xs.val p) (d : Int) :
    ∑ i ∈ xs.idx, p i d = ((xs.idx.filter fun i => d = (xs i).val).card : Int) := by
  rw [Finset.card_filter]
  push_cast
  exact Finset.sum_congr rfl fun i _ => (eqEncodeArr_iff o xs.val p).1 hp i d

theorem exists_encArr {ι : Type} (x : ι → V) : ∃ p, EqEncodeArr o x p :=
  ⟨fun i j => if j = (x i).val then 1 else 0, (eqEncodeArr_iff o x _).2 fun _ _ => rfl⟩

theorem few {xs : Arr V} (h : xs.len ≤ 1) : ∀ i ∈ xs.idx, ∀ j ∈ xs.idx, i = j := by
  unfold Arr.len at h
  exact fun i hi j hj => Finset.card_le_one.1 (by omega) i hi j hj

theorem allDifferent_iff (xs : Arr V) : allDifferent o xs ↔ Count.Spec.AllDifferent (vals xs) := by
  unfold allDifferent Count.Spec.AllDifferent
  rw [vals_idx]
  simp only [vals_val]
  split_ifs with h
  · exact ⟨fun _ i hi j hj _ => few h i hi j hj, fun _ => trivial⟩
  constructor
  · rintro ⟨p, hp, hs⟩ i hi j hj hij
    have h1 := hs _ (mem_encRange hi)
    rw [sum_enc_card o hp] at h1
    exact Finset.card_le_one.1 (by exact_mod_cast h1) i (by simp [hi]) j (by simp [hj, hij])
  · intro h1
    obtain ⟨p, hp⟩ := exists_encArr o xs.val
    refine ⟨p, hp, fun d _ => ?_⟩
    rw [sum_enc_card o hp]
    have : (xs.idx.filter fun i => d = (xs i).val).card ≤ 1 := by
      rw [Finset.card_le_one]
      intro i hi j hj
      rw [Finset.mem_filter] at hi hj
      exact h1 i hi.1 j hj.1 (hi.2.symm.trans hj.2)
    exact_mod_cast this

theorem allDifferentExcept0_iff (xs : Arr V) :
    allDifferentExcept0 o xs ↔ Count.Spec.AllDifferentExcept (vals xs) {0} := by
  unfold allDifferentExcept0 Count.Spec.AllDifferentExcept
  rw [vals_idx]
  simp only [vals_val]
  split_ifs with h
  · exact ⟨fun _ i hi j hj _ _ => few h i hi j hj, fun _ => trivial⟩
  constructor
  · rintro ⟨p, hp, hs⟩ i hi j hj hij h0
    have h1 := hs _ (Finset.mem_sdiff.2 ⟨mem_encRange hi, h0⟩)
    rw [sum_enc_card o hp] at h1
    exact Finset.card_le_one.1 (by exact_mod_cast h1) i (by simp [hi]) j (by simp [hj, hij])
  · intro h1
    obtain ⟨p, hp⟩ := exists_encArr o xs.val
    refine ⟨p, hp, fun d hd => ?_⟩
    rw [sum_enc_card o hp]
    have : (xs.idx.filter fun i => d = (xs i).val).card ≤ 1 := by
      rw [Finset.card_le_one]
      intro i hi j hj
      rw [Finset.mem_filter] at hi hj
      exact h1 i hi.1 j hj.1 (hi.2.symm.trans hj.2) (by rw [← hi.2]; exact (Finset.mem_sdiff.1 hd).2)
    exact_mod_cast this

theorem inverseInRange_iff (f g : Arr Int) : inverseInRange f g ↔ Chan.Spec.InverseInRange f g := by
  unfold inverseInRange Chan.Spec.InverseInRange
  constructor <;> intro h i hi j hj <;> have := h i hi j hj <;> constructor <;> intro e
  · exact (this.1 e.symm).symm
  · exact (this.2 e.symm).symm
  · exact (this.1 e.symm).symm
  · exact (this.2 e.symm).symm

theorem inverse_iff (f g : Arr Int) : inverse f g ↔ Chan.Spec.Inverse f g := by
  unfold inverse Chan.Spec.Inverse
  rw [inverseInRange_iff]
  rfl

theorem inverseReif_iff (f g : Arr Int) (b : Prop) (h : f.idx.Nonempty ∧ g.idx.Nonempty ∨ f.idx = ∅ ∧ g.idx = ∅) :
    inverseReif f g b ↔ (b ↔ Chan.Spec.Inverse f g) := by
  unfold inverseReif
  rw [← inverse_iff]
  unfold inverse inverseInRange
  have : (∀ i ∈ f.idx, ∀ j ∈ g.idx, f i ∈ g.idx ∧ g j ∈ f.idx ∧ (j = f i ↔ i = g j)) ↔
      (∀ i ∈ f.idx, f i ∈ g.idx) ∧ (∀ j ∈ g.idx, g j ∈ f.idx) ∧ ∀ i ∈ f.idx, ∀ j ∈ g.idx, (j = f i ↔ i = g j) := by
    rcases h with ⟨⟨i0, h0⟩, ⟨j0, h1⟩⟩ | ⟨h0, h1⟩
    · exact ⟨fun a => ⟨fun i hi => (a i hi j0 h1).1, fun j hj => (a i0 h0 j hj).2.1, fun i hi j hj => (a i hi j hj).2.2⟩,
        fun a i hi j hj => ⟨a.1 i hi, a.2.1 j hj, a.2.2 i hi j hj⟩⟩
    · simp [h0, h1]
  rw [this]

/-! ### A choice among indices by 0/1 variables -/

theorem one_bit {S : Finset Int} {d : Int → Bool} (h : ∑ i ∈ S, (V.bit (d i)).val = 1) :
    ∃ k ∈ S, d k = true ∧ ∀ i ∈ S, i ≠ k → d i = false := by
  have e : ∑ i ∈ S, (V.bit (d i)).val = ((S.filter fun i => d i = true).card : Int) := by
    rw [Finset.card_filter]
    push_cast
    exact Finset.sum_congr rfl fun i _ => by rw [V.bit_val]
  rw [e] at h
  obtain ⟨k, hk⟩ := Finset.card_eq_one.1 (by exact_mod_cast h)
  have hm : k ∈ S.filter fun i => d i = true := by rw [hk]; simp
  rw [Finset.mem_filter] at hm
  refine ⟨k, hm.1, hm.2, fun i hi hne => ?_⟩
  by_contra hc
  have : i ∈ S.filter fun i => d i = true := by simp [hi]; simpa using hc
  rw [hk, Finset.mem_singleton] at this
  exact hne this

theorem sum_bit {S : Finset Int} {d : Int → Bool} {k : Int} (hk : k ∈ S) (h1 : d k = true)
    (h0 : ∀ i ∈ S, i ≠ k → d i = false) {R : Type} [CommRing R] (f : Int → R) :
    ∑ i ∈ S, ((V.bit (d i)).val : R) * f i = f k := by
  rw [Finset.sum_eq_single k]
  · rw [V.bit_val, h1]; simp
  · intro i hi hne; rw [V.bit_val, h0 i hi hne]; simp
  · intro h; exact absurd hk h

theorem bits_of (S : Finset Int) {k : Int} (hk : k ∈ S) : ∑ i ∈ S, (V.bit (decide (i = k))).val = 1 := by
  have := sum_bit (d := fun i => decide (i = k)) hk (by simp) (fun i _ hne => by simp [hne]) (fun _ => (1 : Int))
  simpa using this

/-! ### Conditional expressions -/

/-- The first condition that holds is `k`. -/
def FirstTrue (n : Int) (c : Int → V) (k : Int) : Prop :=
  (1 ≤ k ∧ k ≤ n) ∧ (c k).val = 1 ∧ ∀ i, 1 ≤ i → i < k → (c i).val = 0

theorem sum_nonneg_c {c : Int → V} (hc : ∀ i, (c i).IsB) (S : Finset Int) : 0 ≤ ∑ j ∈ S, (c j).val :=
  Finset.sum_nonneg fun i _ => by have := (hc i).val_or; omega

theorem ite_flags (n : Int) (c : Int → V) (hc : ∀ i, (c i).IsB) {k : Int} (hk : FirstTrue n c k) (d : Int → Bool)
    (h1 : ∑ i ∈ Finset.Icc 1 n, (V.bit (d i)).val = 1) :
    (∀ i ∈ Finset.Icc 1 n, ∑ j ∈ Finset.Icc 1 (i - 1), (c j).val + (V.bit (d i)).val ≥ (c i).val) ↔
      d k = true ∧ ∀ i ∈ Finset.Icc 1 n, i ≠ k → d i = false := by
  obtain ⟨⟨k1, k2⟩, k3, k4⟩ := hk
  obtain ⟨m, hm, hd, h0⟩ := one_bit h1
  have hz : ∑ j ∈ Finset.Icc 1 (k - 1), (c j).val = 0 := Finset.sum_eq_zero fun j hj => by
    rw [Finset.mem_Icc] at hj; exact k4 j hj.1 (by omega)
  constructor
  · intro h
    have := h k (Finset.mem_Icc.2 ⟨k1, k2⟩)
    rw [hz, k3, V.bit_val] at this
    have hdk : d k = true := by by_contra hc'; rw [if_neg hc'] at this; omega
    have hmk : k = m := by
      by_contra hne
      have := h0 k (Finset.mem_Icc.2 ⟨k1, k2⟩) hne
      rw [hdk] at this; cases this
    subst hmk
    exact ⟨hdk, h0⟩
  · rintro ⟨hdk, hr⟩ i hi
    rw [Finset.mem_Icc] at hi
    have hb := (hc i).val_or
    have hs := sum_nonneg_c hc (Finset.Icc 1 (i - 1))
    rcases lt_trichotomy i k with h | h | h
    · rw [k4 i hi.1 h, V.bit_val]; split_ifs <;> omega
    · rw [h, hdk, V.bit_val, k3, hz]; simp
    · have : (c k).val ≤ ∑ j ∈ Finset.Icc 1 (i - 1), (c j).val :=
        Finset.single_le_sum (f := fun j => (c j).val) (fun j _ => by have := (hc j).val_or; omega)
          (Finset.mem_Icc.2 ⟨k1, by omega⟩)
      rw [V.bit_val]; split_ifs <;> omega

theorem ifThenElseInt_iff (n : Int) (c : Int → V) (hc : ∀ i, (c i).IsB) (x : Int → Int) (y : V) {k : Int}
    (hk : FirstTrue n c k) : ifThenElseInt n c x y ↔ y.val = x k := by
  have hkm : k ∈ Finset.Icc 1 n := Finset.mem_Icc.2 hk.1
  unfold ifThenElseInt
  constructor
  · rintro ⟨d, h1, h2, h3⟩
    obtain ⟨hd, h0⟩ := (ite_flags n c hc hk d h2).1 h1
    rw [h3]
    have := sum_bit hkm hd h0 x
    simpa using this
  · intro h
    refine ⟨fun i => decide (i = k), (ite_flags n c hc hk _ (bits_of _ hkm)).2 ⟨by simp, fun i _ hne => by simp [hne]⟩,
      bits_of _ hkm, ?_⟩
    have := sum_bit (d := fun i => decide (i = k)) hkm (by simp) (fun i _ hne => by simp [hne]) x
    rw [h, ← this]
    simp

theorem ifThenElseFloat_iff (n : Int) (c : Int → V) (hc : ∀ i, (c i).IsB) (x : Int → ℚ) (y : F) {k : Int}
    (hk : FirstTrue n c k) : ifThenElseFloat n c x y ↔ y.val = x k := by
  have hkm : k ∈ Finset.Icc 1 n := Finset.mem_Icc.2 hk.1
  unfold ifThenElseFloat
  constructor
  · rintro ⟨d, h1, h2, h3⟩
    obtain ⟨hd, h0⟩ := (ite_flags n c hc hk d h2).1 h1
    rw [h3]
    exact sum_bit hkm hd h0 x
  · intro h
    refine ⟨fun i => decide (i = k), (ite_flags n c hc hk _ (bits_of _ hkm)).2 ⟨by simp, fun i _ hne => by simp [hne]⟩,
      bits_of _ hkm, ?_⟩
    rw [h]
    exact (sum_bit (d := fun i => decide (i = k)) hkm (by simp) (fun i _ hne => by simp [hne]) x).symm

/-! ### Table and clause -/

theorem tableInt_iff (xs : Arr V) (t : Mat Int) : tableInt xs t ↔ Ext.Spec.InTable (vals xs) t := by
  unfold tableInt Ext.Spec.InTable
  rw [vals_idx]
  simp only [vals_val]
  constructor
  · rintro ⟨l, h1, h2⟩
    obtain ⟨k, hk, hd, h0⟩ := one_bit h1
    refine ⟨k, (Finset.mem_Icc.1 hk).1, (Finset.mem_Icc.1 hk).2, fun j hj => ?_⟩
    rw [← h2 j hj]
    have := sum_bit hk hd h0 (fun i => t.val i j)
    simp only [Int.cast_id] at this
    rw [← this]
    exact Finset.sum_congr rfl fun i _ => mul_comm _ _
  · rintro ⟨r, h1, h2, h3⟩
    have hr : r ∈ Finset.Icc t.lo1 t.hi1 := Finset.mem_Icc.2 ⟨h1, h2⟩
    refine ⟨fun i => decide (i = r), bits_of _ hr, fun j hj => ?_⟩
    rw [h3 j hj]
    have := sum_bit (d := fun i => decide (i = r)) hr (by simp) (fun i _ hne => by simp [hne]) (fun i => t.val i j)
    simp only [Int.cast_id] at this
    rw [← this]
    exact Finset.sum_congr rfl fun i _ => mul_comm _ _

theorem sum_vals_pos (xs : List V) (h : ∀ x ∈ xs, x.IsB) :
    0 ≤ (xs.map V.val).sum ∧ (1 ≤ (xs.map V.val).sum ↔ ∃ x ∈ xs, x.val = 1) := by
  induction xs with
  | nil => simp
  | cons x xs ih =>
    have h1 := (h x (by simp)).val_or
    obtain ⟨i1, i2⟩ := ih fun y hy => h y (by simp [hy])
    simp only [List.map_cons, List.sum_cons, List.mem_cons, exists_eq_or_imp]
    refine ⟨by omega, ?_⟩
    rw [← i2]
    omega

theorem sum_vals_le (ys : List V) (h : ∀ x ∈ ys, x.IsB) :
    (ys.map V.val).sum ≤ ys.length ∧ ((ys.map V.val).sum + 1 ≤ ys.length ↔ ∃ y ∈ ys, y.val = 0) := by
  induction ys with
  | nil => simp
  | cons x xs ih =>
    have h1 := (h x (by simp)).val_or
    obtain ⟨i1, i2⟩ := ih fun y hy => h y (by simp [hy])
    simp only [List.map_cons, List.sum_cons, List.mem_cons, exists_eq_or_imp, List.length_cons]
    push_cast
    refine ⟨by omega, ?_⟩
    rw [← i2]
    omega

theorem boolClauseReif_iff (xs ys : List V) (b : V) (hx : ∀ x ∈ xs, x.IsB) (hy : ∀ y ∈ ys, y.IsB) :
    boolClauseReif xs ys b ↔ (b.val = 1 ↔ (∃ x ∈ xs, x.val = 1) ∨ ∃ y ∈ ys, y.val = 0) := by
  unfold boolClauseReif
  obtain ⟨a1, a2⟩ := sum_vals_pos xs hx
  obtain ⟨b1, b2⟩ := sum_vals_le ys hy
  have : ((xs.map V.val).sum - (ys.map V.val).sum + ys.length ≥ 1) ↔ (∃ x ∈ xs, x.val = 1) ∨ ∃ y ∈ ys, y.val = 0 := by
    rw [← a2, ← b2]; omega
  rw [this]

/-! ### Lexicographic order -/

/-- The first `k` elements are equal and element `k` is smaller. -/
def DiffAt {α : Type} (lt : α → α → Prop) (x y : Int → α) (k : Int) : Prop :=
  (∀ i, 0 ≤ i → i < k → x i = y i) ∧ lt (x k) (y k)

theorem flags_back {size : Int} {fEQ fLT : Int → Bool} (h : lexFlags size fEQ fLT) (k : Nat) :
    ∀ m : Nat, m ≤ k → (k : Int) ≤ size → fEQ k = true → fEQ m = true := by
  induction k with
  | zero => intro m hm _ h; rw [Nat.le_zero.1 hm]; exact h
  | succ k ih =>
    intro m hm hs he
    rcases Nat.lt_or_ge m (k + 1) with hlt | hge
    · have := h.2 ((k + 1 : Nat) : Int) (Finset.mem_Icc.2 ⟨by push_cast; omega, hs⟩)
      rw [he] at this
      have h1 : ((k + 1 : Nat) : Int) - 1 = (k : Int) := by push_cast; omega
      rw [h1, V.bit_val, V.bit_val, V.bit_val] at this
      have hk : fEQ k = true := by
        by_contra hc; rw [if_neg hc, if_pos rfl] at this; split_ifs at this <;> omega
      exact ih m (by omega) (by push_cast at hs; omega) hk
    · rw [show m = k + 1 by omega]; exact he

theorem flags_lt {size : Int} {fEQ fLT : Int → Bool} (h : lexFlags size fEQ fLT) {k : Int} (h0 : 0 ≤ k) (hs : k ≤ size)
    (hk : fLT k = true) : ∀ i, 0 ≤ i → i < k → fEQ i = true := by
  intro i hi hik
  have := h.2 k (Finset.mem_Icc.2 ⟨by omega, hs⟩)
  rw [hk, V.bit_val, V.bit_val, V.bit_val, if_pos rfl] at this
  have hk1 : fEQ (k - 1) = true := by
    by_contra hc; rw [if_neg hc] at this; split_ifs at this <;> omega
  have e1 : (((k - 1).toNat : Nat) : Int) = k - 1 := by omega
  have e2 : ((i.toNat : Nat) : Int) = i := by omega
  have := flags_back h (k - 1).toNat i.toNat (by omega) (by omega) (by rw [e1]; exact hk1)
  rwa [e2] at this

theorem flags_none {size : Int} {fEQ fLT : Int → Bool} (h : lexFlags size fEQ fLT)
    (hn : ∀ i, 0 ≤ i → i ≤ size → fLT i = false) (hs : 0 ≤ size) (m : Nat) : (m : Int) ≤ size → fEQ m = true := by
  induction m with
  | zero =>
    intro _
    have := h.1
    rw [hn 0 (le_refl _) hs, V.bit_val, V.bit_val] at this
    rcases hc : fEQ 0 with _ | _
    · rw [hc] at this; simp at this
    · rfl
  | succ m ih =>
    intro hm
    have h1 := ih (by push_cast at hm; omega)
    have := h.2 ((m + 1 : Nat) : Int) (Finset.mem_Icc.2 ⟨by push_cast; omega, hm⟩)
    have e : ((m + 1 : Nat) : Int) - 1 = (m : Int) := by push_cast; omega
    rw [e, h1, hn _ (by omega) hm, V.bit_val, V.bit_val, V.bit_val, if_pos rfl] at this
    by_contra hc
    rw [if_neg hc] at this; simp at this

theorem flags_mk (size k : Int) (hk : 0 ≤ k) : lexFlags size (fun i => decide (i < k)) (fun i => decide (i = k)) := by
  constructor
  · simp only [V.bit_val, decide_eq_true_eq]
    split_ifs <;> omega
  · intro i hi
    simp only [V.bit_val, decide_eq_true_eq]
    rw [Finset.mem_Icc] at hi
    split_ifs <;> omega

theorem flags_mk_eq (size : Int) : lexFlags size (fun _ => true) (fun _ => false) := by
  constructor
  · simp [V.bit_val]
  · intro i _; simp [V.bit_val]

section
variable {α : Type} [LinearOrder α]

/-- What the flags mean, for any kind of values. -/
theorem lexLess_flags {size : Int} (lt : α → α → Prop) (x y : Int → α) :
    (∃ fEQ fLT : Int → Bool, ∑ i ∈ Finset.Icc 0 size, (V.bit (fLT i)).val = 1 ∧ lexFlags size fEQ fLT ∧
      ∀ i ∈ Finset.Icc 0 size, ((V.bit (fEQ i)).val = 1 → x i = y i) ∧ ((V.bit (fLT i)).val = 1 → lt (x i) (y i))) ↔
    ∃ k, (0 ≤ k ∧ k ≤ size) ∧ DiffAt lt x y k := by
  constructor
  · rintro ⟨fEQ, fLT, h1, h2, h3⟩
    obtain ⟨k, hk, hd, -⟩ := one_bit h1
    have hk' := Finset.mem_Icc.1 hk
    refine ⟨k, hk', fun i h0 hik => ?_, ?_⟩
    · exact (h3 i (Finset.mem_Icc.2 ⟨h0, by omega⟩)).1 (by rw [V.bit_val, flags_lt h2 hk'.1 hk'.2 hd i h0 hik, if_pos rfl])
    · exact (h3 k hk).2 (by rw [V.bit_val, hd, if_pos rfl])
  · rintro ⟨k, hk, hd⟩
    refine ⟨fun i => decide (i < k), fun i => decide (i = k), bits_of _ (Finset.mem_Icc.2 hk), flags_mk size k hk.1, ?_⟩
    intro i hi
    rw [Finset.mem_Icc] at hi
    simp only [V.bit_val, decide_eq_true_eq]
    constructor
    · intro h; split_ifs at h with c
      · exact hd.1 i hi.1 c
      · omega
    · intro h; split_ifs at h with c
      · rw [c]; exact hd.2
      · omega

theorem lexLessEq_flags {size : Int} (lt : α → α → Prop) (hs : 0 ≤ size) (x y : Int → α) :
    (∃ fEQ fLT : Int → Bool, ∑ i ∈ Finset.Icc 0 size, (V.bit (fLT i)).val ≤ 1 ∧ lexFlags size fEQ fLT ∧
      ∀ i ∈ Finset.Icc 0 size, ((V.bit (fEQ i)).val = 1 → x i = y i) ∧ ((V.bit (fLT i)).val = 1 → lt (x i) (y i))) ↔
    (∃ k, (0 ≤ k ∧ k ≤ size) ∧ DiffAt lt x y k) ∨ ∀ i, 0 ≤ i → i ≤ size → x i = y i := by
  constructor
  · rintro ⟨fEQ, fLT, h1, h2, h3⟩
    by_cases hn : ∀ i, 0 ≤ i → i ≤ size → fLT i = false
    · right
      intro i h0 hi
      have := flags_none h2 hn hs i.toNat (by omega)
      rw [show ((i.toNat : Nat) : Int) = i by omega] at this
      exact (h3 i (Finset.mem_Icc.2 ⟨h0, hi⟩)).1 (by rw [V.bit_val, this, if_pos rfl])
    · left
      push Not at hn
      obtain ⟨k, hk0, hk1, hk⟩ := hn
      have hk : fLT k = true := by simpa using hk
      refine ⟨k, ⟨hk0, hk1⟩, fun i h0 hik => ?_, ?_⟩
      · exact (h3 i (Finset.mem_Icc.2 ⟨h0, by omega⟩)).1 (by rw [V.bit_val, flags_lt h2 hk0 hk1 hk i h0 hik, if_pos rfl])
      · exact (h3 k (Finset.mem_Icc.2 ⟨hk0, hk1⟩)).2 (by rw [V.bit_val, hk, if_pos rfl])
  · rintro (h | h)
    · obtain ⟨fEQ, fLT, h1, h2, h3⟩ := (lexLess_flags lt x y).2 h
      exact ⟨fEQ, fLT, h1.le, h2, h3⟩
    · refine ⟨fun _ => true, fun _ => false, by simp [V.bit_val], flags_mk_eq size, fun i hi => ?_⟩
      rw [Finset.mem_Icc] at hi
      exact ⟨fun _ => h i hi.1 hi.2, fun h' => by simp [V.bit_val] at h'⟩

theorem lex_exists (s t : List α) : List.Lex (· < ·) s t ↔
    (s = t.take s.length ∧ s.length < t.length) ∨
      ∃ (i : Nat) (h₁ : i < s.length) (h₂ : i < t.length),
        (∀ j, (hj : j < i) → s[j]'(Nat.lt_trans hj h₁) = t[j]'(Nat.lt_trans hj h₂)) ∧ s[i] < t[i] :=
  List.lt_iff_exists (l₁ := s) (l₂ := t)

theorem lex_diffAt (x y : Arr α) (hl : y.len ≤ x.len) :
    LexLess x y ↔ ∃ k, (0 ≤ k ∧ k ≤ min (x.hi - x.lo) (y.hi - y.lo)) ∧
      DiffAt (· < ·) (fun i => x (x.lo + i)) (fun i => y (y.lo + i)) k := by
  unfold LexLess
  rw [lex_exists]
  have lx := LexOrd.length_elems x
  have ly := LexOrd.length_elems y
  have ex := LexOrd.len_eq_length x
  have ey := LexOrd.len_eq_length y
  constructor
  · rintro (⟨-, h⟩ | ⟨i, h1, h2, h3, h4⟩)
    · omega
    · refine ⟨i, ⟨by omega, by omega⟩, fun j h0 hj => ?_, ?_⟩
      · have := h3 j.toNat (by omega)
        rw [LexOrd.getElem_elems, LexOrd.getElem_elems, show ((j.toNat : Nat) : Int) = j by omega] at this
        exact this
      · rw [LexOrd.getElem_elems, LexOrd.getElem_elems] at h4
        exact h4
  · rintro ⟨k, ⟨h1, h2⟩, h3, h4⟩
    refine Or.inr ⟨k.toNat, by omega, by omega, fun j hj => ?_, ?_⟩
    · rw [LexOrd.getElem_elems, LexOrd.getElem_elems]
      exact h3 j (by omega) (by omega)
    · rw [LexOrd.getElem_elems, LexOrd.getElem_elems, show ((k.toNat : Nat) : Int) = k by omega]
      exact h4

theorem elems_eq_iff (x y : Arr α) (hl : x.len = y.len) (hx : x.len ≠ 0) :
    elems x = elems y ↔ ∀ i, 0 ≤ i → i ≤ min (x.hi - x.lo) (y.hi - y.lo) → x (x.lo + i) = y (y.lo + i) := by
  have lx := LexOrd.length_elems x
  have ly := LexOrd.length_elems y
  have ex := LexOrd.len_eq_length x
  have ey := LexOrd.len_eq_length y
  constructor
  · intro h i h0 hi
    have h1 : i.toNat < (elems x).length := by omega
    have h2 : i.toNat < (elems y).length := by omega
    have : (elems x)[i.toNat] = (elems y)[i.toNat] := by congr 1
    rw [LexOrd.getElem_elems, LexOrd.getElem_elems, show ((i.toNat : Nat) : Int) = i by omega] at this
    exact this
  · intro h
    apply List.ext_getElem (by omega)
    intro i h1 h2
    rw [LexOrd.getElem_elems, LexOrd.getElem_elems]
    exact h i (by omega) (by omega)

end

theorem lex_nil {α : Type} [LT α] {l : List α} (h : l ≠ []) : List.Lex (· < ·) [] l := by
  cases l with
  | nil => exact absurd rfl h
  | cons a l => exact List.Lex.nil

theorem lexLessInt_iff (xs ys : Arr V) (h : ys.len ≤ xs.len ∨ xs.len = 0) :
    lexLessInt o xs ys ↔ LexLess (vals xs) (vals ys) := by
  unfold lexLessInt
  have lx : (vals xs).len = xs.len := rfl
  have ly : (vals ys).len = ys.len := rfl
  have nx := LexOrd.len_nonneg xs
  have ny := LexOrd.len_nonneg ys
  split_ifs with a b
  · have : elems (vals ys) = [] := LexOrd.elems_nil (ly.trans a)
    unfold LexLess
    rw [this]
    exact ⟨False.elim, fun h => LexOrd.lex_not_nil h⟩
  · have e : elems (vals xs) = [] := LexOrd.elems_nil (lx.trans b)
    refine ⟨fun _ => ?_, fun _ => trivial⟩
    unfold LexLess
    rw [e]
    refine lex_nil fun e2 => a ?_
    have : (vals ys).len = ((elems (vals ys)).length : Int) := LexOrd.len_eq_length _
    rw [e2] at this
    exact this
  · have h1 : (vals ys).len ≤ (vals xs).len := h.resolve_right b
    dsimp only
    rw [lex_diffAt _ _ h1]
    refine Iff.trans ?_ (lexLess_flags (size := min (xs.hi - xs.lo) (ys.hi - ys.lo)) (· < ·) _ _)
    simp only [auxIntEqIf1_iff o _ _ _ (V.bit_isB _), auxIntLtIf1_iff o _ _ _ (V.bit_isB _)]
    rfl

theorem lexLessInt_flags (xs ys : Arr V) (hx : xs.len ≠ 0) (hy : ys.len ≠ 0) :
    lexLessInt o xs ys ↔ ∃ k, (0 ≤ k ∧ k ≤ min (xs.hi - xs.lo) (ys.hi - ys.lo)) ∧
      DiffAt (· < ·) (fun i => vals xs (xs.lo + i)) (fun i => vals ys (ys.lo + i)) k := by
  unfold lexLessInt
  rw [if_neg hx, if_neg hy]
  dsimp only
  refine Iff.trans ?_ (lexLess_flags (size := min (xs.hi - xs.lo) (ys.hi - ys.lo)) (· < ·) _ _)
  simp only [auxIntEqIf1_iff o _ _ _ (V.bit_isB _), auxIntLtIf1_iff o _ _ _ (V.bit_isB _)]
  rfl

theorem lexLessFloat_flags (he : 0 < o.eps) (xs ys : Arr F) (hx : xs.len ≠ 0) (hy : ys.len ≠ 0) :
    lexLessFloat o xs ys ↔ ∃ k, (0 ≤ k ∧ k ≤ min (xs.hi - xs.lo) (ys.hi - ys.lo)) ∧
      DiffAt (fun a b => a ≤ b - o.eps) (fun i => fvals xs (xs.lo + i)) (fun i => fvals ys (ys.lo + i)) k := by
  unfold lexLessFloat
  rw [if_neg hx, if_neg hy]
  dsimp only
  refine Iff.trans ?_ (lexLess_flags (size := min (xs.hi - xs.lo) (ys.hi - ys.lo)) (fun a b => a ≤ b - o.eps) _ _)
  simp only [auxFloatEqIf1_iff o _ _ _ (V.bit_isB _), auxFloatLtIf1_iff o _ _ _ he (V.bit_isB _)]
  rfl

theorem lexLessEqInt_iff (xs ys : Arr V) (c : Prop) (h : lexLessEqInt o xs ys = some c) :
    c ↔ LexLessEq (vals xs) (vals ys) := by
  unfold lexLessEqInt at h
  split_ifs at h with hl
  rw [Option.some.injEq] at h
  subst h
  unfold lexLessEqIntMip LexLessEq
  have h1 : (vals xs).len = (vals ys).len := hl
  have lx : (vals xs).len = xs.len := rfl
  have ly : (vals ys).len = ys.len := rfl
  have nx := LexOrd.len_nonneg xs
  split_ifs with a b
  · have e1 : elems (vals xs) = [] := LexOrd.elems_nil (lx.trans a)
    have e2 : elems (vals ys) = [] := LexOrd.elems_nil (by omega)
    exact ⟨fun _ => Or.inr (e1.trans e2.symm), fun _ => trivial⟩
  · omega
  · dsimp only
    have hs : 0 ≤ min (xs.hi - xs.lo) (ys.hi - ys.lo) := by
      have l1 := LexOrd.length_elems (vals xs)
      have l2 := LexOrd.length_elems (vals ys)
      have l3 := LexOrd.len_eq_length (vals xs)
      have l4 := LexOrd.len_eq_length (vals ys)
      have : (vals xs).hi = xs.hi := rfl
      have : (vals xs).lo = xs.lo := rfl
      have : (vals ys).hi = ys.hi := rfl
      have : (vals ys).lo = ys.lo := rfl
      omega
    rw [lex_diffAt _ _ h1.ge, elems_eq_iff _ _ h1 (by omega)]
    refine Iff.trans ?_ (lexLessEq_flags (size := min (xs.hi - xs.lo) (ys.hi - ys.lo)) (· < ·) hs _ _)
    simp only [auxIntEqIf1_iff o _ _ _ (V.bit_isB _), auxIntLtIf1_iff o _ _ _ (V.bit_isB _)]
    rfl

/-- The columns' values. -/
def mvals (a : Mat V) : Mat Int := ⟨a.lo1, a.hi1, a.lo2, a.hi2, fun i j => (a.val i j).val⟩

theorem vals_column (a : Mat V) (j : Int) : vals (column a j) = column (mvals a) j := rfl

theorem lexChain_iff (a : Mat V) : lexChain o a ↔ ColumnsSorted (mvals a) := by
  have := LexOrd.adjacent (P := fun j k => LexLessEq (column (mvals a) j) (column (mvals a) k))
    (fun _ _ _ => LexOrd.lexLessEq_trans) a.lo2 a.hi2
  unfold lexChain ColumnsSorted
  refine Iff.trans ?_ this
  refine forall_congr' fun j => forall_congr' fun h1 => ?_
  have hl : (column a j).len = (column a (j + 1)).len := rfl
  have hs : lexLessEqInt o (column a j) (column a (j + 1)) = some (lexLessEqIntMip o (column a j) (column a (j + 1))) := by
    unfold lexLessEqInt; rw [if_pos hl]
  have := lexLessEqInt_iff o _ _ _ hs
  rw [vals_column, vals_column] at this
  simp only [hs, Option.some.injEq, exists_eq_left', this, and_imp]

end MZ.LinGlob
