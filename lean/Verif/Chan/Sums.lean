import Verif.Chan.Arg
import Mathlib.Algebra.Order.BigOperators.Group.Finset
import Mathlib.Tactic.Ring

/-! # Writes, sums, flows and piecewise linear functions -/

namespace MZ.Chan
open MZ.Globals MZ.Chan.Spec

theorem write_iff (I : Arr Int) (i v : Int) (O : Arr Int) : fznWrite I i v O ↔ Write I i v O := by
  unfold fznWrite Write
  simp only [Function.update_apply]

/-- The element that `fzn_writes_seq` selects for `i`. -/
theorem select_last (I P V : Arr Int) (hlo : P.lo = V.lo) (hhi : P.hi = V.hi) (hv : V.lo ≤ V.hi + 1) (i m : Int)
    (hm : FirstMax ⟨1, V.len + 1, fun k => if k ≤ V.len then b2i (P (V.hi - (k - 1)) = i) else 1⟩ m) :
    (∀ j ∈ P.idx, P j = i → (∀ k ∈ P.idx, j < k → P k ≠ i) → (if m ≤ V.len then V (V.hi - (m - 1)) else I i) = V j) ∧
      ((∀ j ∈ P.idx, P j ≠ i) → (if m ≤ V.len then V (V.hi - (m - 1)) else I i) = I i) := by
  obtain ⟨hmem, h1, h2⟩ := hm
  have hlen := len_eq V hv
  rw [Arr.mem_idx] at hmem
  dsimp only at hmem h1 h2
  have hmax : (if m ≤ V.len then b2i (P (V.hi - (m - 1)) = i) else 1) = 1 := by
    have := h1 (V.len + 1) (by rw [Arr.mem_idx]; dsimp only; omega)
    rw [if_neg (by omega)] at this
    by_cases hmv : m ≤ V.len
    · rw [if_pos hmv] at this ⊢
      by_cases hp : P (V.hi - (m - 1)) = i
      · exact b2i_true hp
      · rw [b2i_false hp] at this; omega
    · exact if_neg hmv
  have hPm : m ≤ V.len → P (V.hi - (m - 1)) = i := by
    intro h
    rw [if_pos h] at hmax
    by_contra hc
    rw [b2i_false hc] at hmax
    omega
  constructor
  · intro j hj e hlast
    rw [Arr.mem_idx, hlo, hhi] at hj
    have hk := h2 (V.hi - j + 1) (by rw [Arr.mem_idx]; dsimp only; omega) (by
      rw [hmax, if_pos (by omega), show V.hi - (V.hi - j + 1 - 1) = j by omega]
      exact b2i_true e)
    rw [if_pos (by omega)]
    by_cases hjm : V.hi - (m - 1) = j
    · rw [hjm]
    · exact absurd (hPm (by omega)) (hlast _ (by rw [Arr.mem_idx, hlo, hhi]; omega) (by omega))
  · intro hno
    rw [if_neg]
    intro h
    exact hno _ (by rw [Arr.mem_idx, hlo, hhi]; omega) (hPm h)

theorem writesSeq_iff (I P V O : Arr Int) (hlo : P.lo = V.lo) (hhi : P.hi = V.hi) (hv : V.lo ≤ V.hi + 1) :
    fznWritesSeq I P V O ↔ WritesSeq I P V O := by
  unfold fznWritesSeq WritesSeq
  dsimp only
  simp only [argMax_iff]
  apply forall_congr'; intro i
  apply imp_congr_right; intro hi
  have hlen := len_eq V hv
  constructor
  · rintro ⟨m, hm, -, e⟩
    rw [e]
    exact select_last I P V hlo hhi hv i m hm
  · rintro ⟨h1, h2⟩
    obtain ⟨m, hm⟩ := firstMax_exists (⟨1, V.len + 1, fun k => if k ≤ V.len then b2i (P (V.hi - (k - 1)) = i) else 1⟩ : Arr Int)
      ⟨V.len + 1, by rw [Arr.mem_idx]; dsimp only; omega⟩
    obtain ⟨s1, s2⟩ := select_last I P V hlo hhi hv i m hm
    refine ⟨m, hm, hm.1, ?_⟩
    by_cases hex : ∃ j ∈ P.idx, P j = i
    · obtain ⟨j0, hj0, e0⟩ := hex
      obtain ⟨j, hj, hmax⟩ := Finset.exists_max_image (P.idx.filter (fun j => P j = i)) id ⟨j0, Finset.mem_filter.mpr ⟨hj0, e0⟩⟩
      rw [Finset.mem_filter] at hj
      have hlast : ∀ k ∈ P.idx, j < k → P k ≠ i := by
        intro k hk hlt e
        have := hmax k (Finset.mem_filter.mpr ⟨hk, e⟩)
        simp only [id] at this
        omega
      rw [h1 j hj.1 hj.2 hlast, s1 j hj.1 hj.2 hlast]
    · push Not at hex
      rw [h2 hex, s2 hex]

theorem writes_iff (I P V O : Arr Int) (hO : O.idx = I.idx) :
    fznWrites I P V O ↔ (∀ j ∈ P.idx, P j ∈ I.idx ∧ O (P j) = V j) ∧ ∀ i ∈ I.idx, (∀ j ∈ P.idx, P j ≠ i) → O i = I i := by
  unfold fznWrites
  rw [hO]
  apply and_congr_right'
  apply forall_congr'; intro i
  apply imp_congr_right; intro _
  split
  · rename_i h; exact ⟨fun e _ => e, fun e => e h⟩
  · rename_i h; exact ⟨fun _ e => absurd e h, fun _ => trivial⟩

/-! ## Sliding sums -/

theorem sum_Icc_succ (f : Int → Int) (a b : Int) (h : a ≤ b + 1) :
    ∑ i ∈ Finset.Icc a (b + 1), f i = ∑ i ∈ Finset.Icc a b, f i + f (b + 1) := by
  have : Finset.Icc a (b + 1) = insert (b + 1) (Finset.Icc a b) := by
    ext x; simp only [Finset.mem_insert, Finset.mem_Icc]; omega
  rw [this, Finset.sum_insert (by simp), Int.add_comm]

theorem prefix_diff (xs S : Int → Int) (lo hi : Int) (h : ∀ i ∈ Finset.Icc lo hi, S i = xs i + S (i - 1)) (a : Int)
    (ha : lo - 1 ≤ a) : ∀ d : Nat, a + (d : Int) ≤ hi → S (a + (d : Int)) = S a + ∑ i ∈ Finset.Icc (a + 1) (a + (d : Int)), xs i := by
  intro d
  induction d with
  | zero => intro _; simp
  | succ d ih =>
    intro hd
    push_cast at hd
    have e : a + ((d + 1 : Nat) : Int) = a + (d : Int) + 1 := by push_cast; omega
    rw [e, h _ (Finset.mem_Icc.mpr (by omega)), show a + (d : Int) + 1 - 1 = a + (d : Int) by omega, ih (by omega),
      sum_Icc_succ _ _ _ (by omega)]
    omega

theorem slidingSum_iff (low up w : Int) (xs : Arr Int) (hne : xs.idx.Nonempty) (hw : 0 ≤ w) :
    fznSlidingSum low up w xs ↔ SlidingSum low up w xs := by
  have hlo : xs.lo ≤ xs.hi := by obtain ⟨i, hi⟩ := hne; rw [Arr.mem_idx] at hi; omega
  constructor
  · rintro ⟨-, S, -, -, -, hS, hwin⟩ i h1 h2
    obtain ⟨-, ha, hb⟩ := hwin (i - 1) (Finset.mem_Icc.mpr (by omega))
    have := prefix_diff xs S xs.lo xs.hi hS (i - 1) (by omega) w.toNat (by omega)
    rw [show i - 1 + (w.toNat : Int) = i - 1 + w by omega, show i - 1 + 1 = i by omega, show i - 1 + w = i + w - 1 by omega] at this
    rw [show i - 1 + w = i + w - 1 by omega] at ha hb
    omega
  · intro h
    have hS : ∀ i ∈ Finset.Icc xs.lo xs.hi, (fun i => ∑ j ∈ Finset.Icc xs.lo i, xs j) i =
        xs i + (fun i => ∑ j ∈ Finset.Icc xs.lo i, xs j) (i - 1) := by
      intro i hi
      rw [Finset.mem_Icc] at hi
      have := sum_Icc_succ xs xs.lo (i - 1) (by omega)
      rw [show i - 1 + 1 = i by omega] at this
      dsimp only
      omega
    refine ⟨hne, ⟨xs.lo - 1, xs.hi, fun i => ∑ j ∈ Finset.Icc xs.lo i, xs j⟩, rfl, rfl, ?_, hS, ?_⟩
    · show ∑ j ∈ Finset.Icc xs.lo (xs.lo - 1), xs j = 0
      rw [Finset.Icc_eq_empty (by omega)]; rfl
    · intro i hi
      rw [Finset.mem_Icc] at hi
      have hd := prefix_diff xs (fun i => ∑ j ∈ Finset.Icc xs.lo i, xs j) xs.lo xs.hi hS i (by omega) w.toNat (by omega)
      rw [show i + (w.toNat : Int) = i + w by omega] at hd
      have := h (i + 1) (by omega) (by omega)
      rw [show i + 1 + w - 1 = i + w by omega] at this
      refine ⟨⟨?_, ?_⟩, ?_⟩
      · rw [Arr.mem_idx]; dsimp only; omega
      · rw [Arr.mem_idx]; dsimp only; omega
      · dsimp only at hd ⊢
        omega

/-! ## Flows -/

theorem networkFlow_core (a : Arcs) (balance flow : Arr Int) : fznNetworkFlow a balance flow ↔ Flow a balance flow := by
  unfold fznNetworkFlow Flow
  apply forall_congr'; intro n
  apply imp_congr_right; intro _
  have e1 : a.idx.filter (fun j => n = a.src j) = a.idx.filter (fun j => a.src j = n) :=
    Finset.filter_congr (fun _ _ => eq_comm)
  have e2 : a.idx.filter (fun j => n = a.dst j) = a.idx.filter (fun j => a.dst j = n) :=
    Finset.filter_congr (fun _ _ => eq_comm)
  rw [e1, e2]
  omega

theorem sum_by_node (a : Arcs) (balance flow : Arr Int) (f : Int → Int) (hf : ∀ e ∈ a.idx, f e ∈ balance.idx) :
    ∑ n ∈ balance.idx, ∑ e ∈ a.idx.filter (fun e => f e = n), flow e = ∑ e ∈ a.idx, flow e := by
  have : ∀ n ∈ balance.idx, ∑ e ∈ a.idx.filter (fun e => f e = n), flow e = ∑ e ∈ a.idx, if f e = n then flow e else 0 :=
    fun n _ => Finset.sum_filter _ _
  rw [Finset.sum_congr rfl this, Finset.sum_comm]
  apply Finset.sum_congr rfl
  intro e he
  rw [Finset.sum_ite_eq]
  exact if_pos (hf e he)

/-- A flow exists only where the balances add up to 0. -/
theorem flow_balance (a : Arcs) (balance flow : Arr Int) (hn : ∀ e ∈ a.idx, a.src e ∈ balance.idx ∧ a.dst e ∈ balance.idx)
    (h : Flow a balance flow) : ∑ n ∈ balance.idx, balance n = 0 := by
  have h1 := sum_by_node a balance flow a.src (fun e he => (hn e he).1)
  have h2 := sum_by_node a balance flow a.dst (fun e he => (hn e he).2)
  rw [Finset.sum_congr rfl h, Finset.sum_add_distrib, h2] at h1
  omega

theorem networkFlow_iff (a : Arcs) (balance flow : Arr Int) (ha : a.idx = flow.idx)
    (hn : ∀ e ∈ a.idx, a.src e ∈ balance.idx ∧ a.dst e ∈ balance.idx) :
    ∃ P, networkFlow a balance flow = some P ∧ (P ↔ Flow a balance flow) := by
  unfold networkFlow
  rw [if_pos ha, if_pos hn]
  refine ⟨_, rfl, ?_⟩
  by_cases hb : ∑ n ∈ balance.idx, balance n = 0
  · rw [if_neg (by simpa using hb), networkFlow_core]
  · rw [if_pos hb]
    exact ⟨False.elim, fun h => hb (flow_balance a balance flow hn h)⟩

theorem networkFlowCost_iff (a : Arcs) (balance weight flow : Arr Int) (cost : Int) (ha : a.idx = flow.idx)
    (hw : a.idx = weight.idx) (hn : ∀ e ∈ a.idx, a.src e ∈ balance.idx ∧ a.dst e ∈ balance.idx) :
    ∃ P, networkFlowCost a balance weight flow cost = some P ∧
      (P ↔ Flow a balance flow ∧ cost = ∑ e ∈ a.idx, weight e * flow e) := by
  unfold networkFlowCost
  rw [if_pos ha, if_pos hw, if_pos hn]
  refine ⟨_, rfl, ?_⟩
  have e : ∑ i ∈ a.idx, flow i * weight i = ∑ e ∈ a.idx, weight e * flow e :=
    Finset.sum_congr rfl (fun _ _ => Int.mul_comm _ _)
  by_cases hb : ∑ n ∈ balance.idx, balance n = 0
  · rw [if_neg (by simpa using hb), networkFlow_core, e, and_comm]
  · rw [if_pos hb]
    exact ⟨False.elim, fun h => hb (flow_balance a balance flow hn h.1)⟩

theorem knapsack_iff (weight profit xs : Arr Int) (tw tp : Int) (hp : weight.idx = profit.idx) (hx : weight.idx = xs.idx)
    (hne : xs.idx.Nonempty) (hw0 : ∀ i ∈ xs.idx, 0 ≤ weight i) (hp0 : ∀ i ∈ xs.idx, 0 ≤ profit i) :
    ∃ P, knapsack weight profit xs tw tp = some P ∧ (P ↔ Knapsack weight profit xs tw tp) := by
  unfold knapsack
  have hm1 : minOf weight.idx weight ≥ 0 := by
    obtain ⟨i, hi, e⟩ := minOf_mem (f := weight) (hx ▸ hne)
    rw [e]; exact hw0 i (hx ▸ hi)
  have hm2 : minOf profit.idx profit ≥ 0 := by
    obtain ⟨i, hi, e⟩ := minOf_mem (f := profit) (hp ▸ hx ▸ hne)
    rw [e]; exact hp0 i (hx ▸ hp ▸ hi)
  rw [if_pos ⟨hp, hx⟩, if_pos ⟨hx ▸ hne, hm1⟩, if_pos hm2]
  refine ⟨_, rfl, ?_⟩
  rw [← hp, hx]
  have e1 : ∑ i ∈ xs.idx, xs i * profit i = ∑ i ∈ xs.idx, profit i * xs i := Finset.sum_congr rfl (fun _ _ => Int.mul_comm _ _)
  have e2 : ∑ i ∈ xs.idx, xs i * weight i = ∑ i ∈ xs.idx, weight i * xs i := Finset.sum_congr rfl (fun _ _ => Int.mul_comm _ _)
  rw [e1, e2]
  constructor
  · rintro ⟨h1, -, -, h2, h3⟩; exact ⟨h1, h3, h2⟩
  · rintro ⟨h1, h3, h2⟩
    refine ⟨h1, ?_, ?_, h2, h3⟩
    · rw [h3]; exact Finset.sum_nonneg (fun i hi => Int.mul_nonneg (hw0 i hi) (h1 i hi))
    · rw [h2]; exact Finset.sum_nonneg (fun i hi => Int.mul_nonneg (hp0 i hi) (h1 i hi))

/-! ## Piecewise linear functions -/

/-- Numbers 0 or 1 with the sum 1: exactly one of them is 1. -/
theorem one_selected {S : Finset Int} {f : Int → Int} (h : ∀ i ∈ S, 0 ≤ f i ∧ f i ≤ 1) (hs : 1 = ∑ i ∈ S, f i) :
    ∃ i ∈ S, f i = 1 ∧ ∀ j ∈ S, j ≠ i → f j = 0 := by
  have hex : ∃ i ∈ S, f i = 1 := by
    by_contra hc
    push Not at hc
    have : ∑ i ∈ S, f i = 0 := Finset.sum_eq_zero (fun i hi => by have := h i hi; have := hc i hi; omega)
    omega
  obtain ⟨i, hi, e⟩ := hex
  refine ⟨i, hi, e, ?_⟩
  intro j hj hne
  rw [← Finset.add_sum_erase S f hi, e] at hs
  have hz : ∑ x ∈ S.erase i, f x = 0 := by omega
  exact (Finset.sum_eq_zero_iff_of_nonneg (fun x hx => (h x (Finset.mem_of_mem_erase hx)).1)).mp hz j (Finset.mem_erase.mpr ⟨hne, hj⟩)

/-- One selected segment and a position on it. -/
theorem select_segment {S : Finset Int} (x y : Rat) (a b c d : Int → Rat) (ok : Int → Rat → Prop)
    (hok : ∀ i ∈ S, ∀ t, ok i t → 0 ≤ t ∧ t ≤ 1) :
    (∃ (s : Int → Rat) (f : Int → Int), (∀ i ∈ S, 0 ≤ s i ∧ s i ≤ 1) ∧ (∀ i ∈ S, 0 ≤ f i ∧ f i ≤ 1) ∧ 1 = ∑ i ∈ S, f i ∧
      (∀ i ∈ S, if f i = 1 then ok i (s i) else s i = 0) ∧
      x = ∑ i ∈ S, (a i * (f i : Rat) + b i * s i) ∧ y = ∑ i ∈ S, (c i * (f i : Rat) + d i * s i)) ↔
    ∃ i ∈ S, ∃ t, ok i t ∧ x = a i + t * b i ∧ y = c i + t * d i := by
  constructor
  · rintro ⟨s, f, -, hf, hsum, hsel, hx, hy⟩
    obtain ⟨i, hi, e, h0⟩ := one_selected hf hsum
    have hsi := hsel i hi
    rw [if_pos e] at hsi
    have key : ∀ p q : Int → Rat, ∑ j ∈ S, (p j * (f j : Rat) + q j * s j) = p i + s i * q i := by
      intro p q
      rw [Finset.sum_eq_single i]
      · rw [e]; push_cast; ring
      · intro j hj hne
        have hsj := hsel j hj
        rw [if_neg (by rw [h0 j hj hne]; omega)] at hsj
        rw [h0 j hj hne, hsj]; push_cast; ring
      · intro hni; exact absurd hi hni
    exact ⟨i, hi, s i, hsi, by rw [hx, key], by rw [hy, key]⟩
  · rintro ⟨i, hi, t, ht, hx, hy⟩
    have hb := hok i hi t ht
    obtain ⟨s, s1, s0⟩ : ∃ s : Int → Rat, s i = t ∧ ∀ j, j ≠ i → s j = 0 :=
      ⟨fun j => if j = i then t else 0, if_pos rfl, fun j h => if_neg h⟩
    obtain ⟨f, f1, f0⟩ : ∃ f : Int → Int, f i = 1 ∧ ∀ j, j ≠ i → f j = 0 :=
      ⟨fun j => if j = i then 1 else 0, if_pos rfl, fun j h => if_neg h⟩
    have key : ∀ p q : Int → Rat, ∑ j ∈ S, (p j * (f j : Rat) + q j * s j) = p i + t * q i := by
      intro p q
      rw [Finset.sum_eq_single i]
      · rw [f1, s1]; push_cast; ring
      · intro j _ hne
        rw [f0 j hne, s0 j hne]; push_cast; ring
      · intro hni; exact absurd hi hni
    refine ⟨s, f, ?_, ?_, ?_, ?_, by rw [key]; exact hx, by rw [key]; exact hy⟩
    · intro j _
      by_cases h : j = i
      · rw [h, s1]; exact hb
      · rw [s0 j h]; exact ⟨le_refl _, by decide⟩
    · intro j _
      by_cases h : j = i
      · rw [h, f1]; omega
      · rw [f0 j h]; omega
    · rw [Finset.sum_eq_single i (fun j _ h => f0 j h) (fun h => absurd hi h), f1]
    · intro j _
      by_cases h : j = i
      · rw [h, if_pos f1, s1]; exact ht
      · rw [if_neg (by rw [f0 j h]; omega), s0 j h]

theorem ge_iff_sel {f : Int} {s : Rat} (hf : 0 ≤ f ∧ f ≤ 1) (hs : 0 ≤ s ∧ s ≤ 1) :
    (f : Rat) ≥ s ↔ if f = 1 then (0 ≤ s ∧ s ≤ 1) else s = 0 := by
  have : f = 0 ∨ f = 1 := by omega
  rcases this with rfl | rfl
  · rw [if_neg (by omega)]
    constructor
    · intro h; exact le_antisymm (by simpa using h) hs.1
    · intro h; rw [h]; simp
  · rw [if_pos rfl]
    exact ⟨fun _ => hs, fun _ => by simpa using hs.2⟩

theorem piecewise_iff (x y : Rat) (xk yk : Arr Rat) (hidx : xk.idx = yk.idx) (hlt : xk.lo < xk.hi) :
    ∃ P, fznPiecewiseLinear x y xk yk = some P ∧ (P ↔ OnPolyline x y xk yk) := by
  unfold fznPiecewiseLinear
  have hc : 0 < xk.idx.card := Finset.card_pos.mpr ⟨xk.lo, by rw [Arr.mem_idx]; omega⟩
  rw [if_pos ⟨hidx, hc⟩]
  refine ⟨_, rfl, ?_⟩
  dsimp only
  have hsel := select_segment (S := xk.idx.erase xk.hi) x y xk.val (fun i => xk (i + 1) - xk i) yk.val (fun i => yk (i + 1) - yk i)
    (fun _ t => 0 ≤ t ∧ t ≤ 1) (fun _ _ _ h => h)
  have hmem : ∀ i, i ∈ xk.idx.erase xk.hi ↔ xk.lo ≤ i ∧ i < xk.hi := by
    intro i; rw [Finset.mem_erase, Arr.mem_idx]; omega
  constructor
  · rintro ⟨s, f, h1, h2, h3, h4, h5, h6⟩
    obtain ⟨i, hi, t, ht, ex, ey⟩ := hsel.mp ⟨s, f, h1, h2, h3, fun i hi => (ge_iff_sel (h2 i hi) (h1 i hi)).mp (h4 i hi), h5, h6⟩
    rw [hmem] at hi
    exact .inl ⟨i, hi.1, hi.2, t, ht.1, ht.2, ex, ey⟩
  · rintro (⟨i, hi1, hi2, t, ht1, ht2, ex, ey⟩ | ⟨h, -⟩)
    · obtain ⟨s, f, h1, h2, h3, h4, h5, h6⟩ := hsel.mpr ⟨i, (hmem i).mpr ⟨hi1, hi2⟩, t, ⟨ht1, ht2⟩, ex, ey⟩
      exact ⟨s, f, h1, h2, h3, fun i hi => (ge_iff_sel (h2 i hi) (h1 i hi)).mpr (h4 i hi), h5, h6⟩
    · omega

/-- The point lies on the piece of the given interval; a piece over a single point has the value at its start. -/
def OnPiece (x y : Rat) (xs xe ys ye : Arr Rat) (i : Int) : Prop :=
  (xs i < xe i ∧ OnSegment x y (xs i) (ys i) (xe i) (ye i)) ∨ (xs i = xe i ∧ x = xs i ∧ y = ys i)

theorem nonContinuous_iff (x y : Rat) (xs xe ys ye : Arr Rat) (h1 : xs.idx = ys.idx) (h2 : xs.idx = ye.idx) (h3 : xs.idx = xe.idx)
    (hne : xs.idx.Nonempty) (hle : ∀ i ∈ xs.idx, xs i ≤ xe i) :
    ∃ P, fznPiecewiseLinearNonContinuous x y xs xe ys ye = some P ∧ (P ↔ ∃ i ∈ xs.idx, OnPiece x y xs xe ys ye i) := by
  unfold fznPiecewiseLinearNonContinuous
  rw [if_pos ⟨h1, h2, h3, Finset.card_pos.mpr hne⟩, if_pos hle]
  refine ⟨_, rfl, ?_⟩
  have hsel := select_segment (S := xs.idx) x y xs.val (fun i => xe i - xs i) ys.val (fun i => ye i - ys i)
    (fun i t => (0 ≤ t ∧ t ≤ 1) ∧ (xs i < xe i ∨ t = 0)) (fun _ _ _ h => h.1)
  have hiff : ∀ i ∈ xs.idx, ∀ (f : Int) (s : Rat), (0 ≤ f ∧ f ≤ 1) → (0 ≤ s ∧ s ≤ 1) →
      ((if xs i < xe i then (f : Rat) ≥ s else s = 0) ↔
        if f = 1 then ((0 ≤ s ∧ s ≤ 1) ∧ (xs i < xe i ∨ s = 0)) else s = 0) := by
    intro i hi f s hf hs
    by_cases hlt : xs i < xe i
    · rw [if_pos hlt, ge_iff_sel hf hs]
      split
      · exact ⟨fun h => ⟨h, .inl hlt⟩, fun h => h.1⟩
      · exact Iff.rfl
    · rw [if_neg hlt]
      split
      · constructor
        · intro h; exact ⟨hs, .inr h⟩
        · rintro ⟨-, h | h⟩
          · exact absurd h hlt
          · exact h
      · exact Iff.rfl
  constructor
  · rintro ⟨s, f, a1, a2, a3, a4, a5, a6⟩
    obtain ⟨i, hi, t, ⟨ht, hd⟩, ex, ey⟩ := hsel.mp ⟨s, f, a1, a2, a3, fun i hi => (hiff i hi _ _ (a2 i hi) (a1 i hi)).mp (a4 i hi), a5, a6⟩
    refine ⟨i, hi, ?_⟩
    by_cases hlt : xs i < xe i
    · exact .inl ⟨hlt, t, ht.1, ht.2, ex, ey⟩
    · have ht0 : t = 0 := hd.resolve_left hlt
      rw [ht0] at ex ey
      exact .inr ⟨le_antisymm (hle i hi) (not_lt.mp hlt), by rw [ex]; ring, by rw [ey]; ring⟩
  · rintro ⟨i, hi, hp⟩
    have : ∃ i ∈ xs.idx, ∃ t, ((0 ≤ t ∧ t ≤ 1) ∧ (xs i < xe i ∨ t = 0)) ∧ x = xs i + t * (xe i - xs i) ∧ y = ys i + t * (ye i - ys i) := by
      rcases hp with ⟨hlt, t, t0, t1, ex, ey⟩ | ⟨-, ex, ey⟩
      · exact ⟨i, hi, t, ⟨⟨t0, t1⟩, .inl hlt⟩, ex, ey⟩
      · exact ⟨i, hi, 0, ⟨⟨le_refl _, by decide⟩, .inr rfl⟩, by rw [ex]; ring, by rw [ey]; ring⟩
    obtain ⟨s, f, a1, a2, a3, a4, a5, a6⟩ := hsel.mpr this
    exact ⟨s, f, a1, a2, a3, fun i hi => (hiff i hi _ _ (a2 i hi) (a1 i hi)).mpr (a4 i hi), a5, a6⟩

end MZ.Chan
