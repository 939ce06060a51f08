import Verif.Ext.Mdd

/-! # Lemmas on decision diagrams with costs -/

namespace MZ.Ext
open MZ.Globals MZ.LexOrd MZ.LexOrd.Spec MZ.Ext.Spec

variable {m : Diagram} {xs : Arr Int} {cost : Int → Int}

/-- The rest of the sequence leads from a node to the true node at the given cost. -/
def LeadsC (m : Diagram) (xs : Arr Int) (cost : Int → Int) (n t : Int) : Prop :=
  m.CostPath cost n (sfx xs (lv m xs.len n)) t

/-- Nodes reached from the root along the values of `xs` at the given cost. -/
inductive ReachC (m : Diagram) (xs : Arr Int) (cost : Int → Int) : Int → Int → Prop
  | root : ReachC m xs cost 1 0
  | step (e c : Int) : 1 ≤ e → e ≤ m.E → ReachC m xs cost (m.src e) c → inLabel m xs e →
      ReachC m xs cost (m.dst e) (c + cost e)

/-- The largest cost from a level on. -/
def tailCost (m : Diagram) (cost : Int → Int) (L i : Int) : Int := ∑ l ∈ Finset.Icc i L, maxLevelCost m cost l

theorem tailCost_step (L i : Int) (h : i ≤ L) :
    tailCost m cost L i = maxLevelCost m cost i + tailCost m cost L (i + 1) := by
  unfold tailCost
  have : Finset.Icc i L = insert i (Finset.Icc (i + 1) L) := by
    ext x; simp only [Finset.mem_insert, Finset.mem_Icc]; omega
  rw [this, Finset.sum_insert (by simp)]

theorem path_of_cost : ∀ (w : List Int) (n t : Int), m.CostPath cost n w t → m.Path n w
  | [], _, _, h => h.1
  | _ :: w, _, _, ⟨e, a, b, c, d, h⟩ => ⟨e, a, b, c, d, path_of_cost w _ _ h⟩

theorem cost_unique (hd : m.Deterministic) : ∀ (w : List Int) (n t t' : Int), m.CostPath cost n w t →
    m.CostPath cost n w t' → t = t'
  | [], _, _, _, h, h' => by rw [h.2, h'.2]
  | x :: w, n, t, t', ⟨e, a, b, c, d, h⟩, ⟨e', a', b', c', d', h'⟩ => by
    have : e = e' := hd e e' a b a' b' (by rw [c, c']) ⟨x, d, d'⟩
    subst this
    have := cost_unique hd w _ _ _ h h'
    omega

section
variable (hc : ∀ e, 1 ≤ e → e ≤ m.E → 0 ≤ cost e)
include hc

theorem maxLevelCost_nonneg (l : Int) : 0 ≤ maxLevelCost m cost l := by
  unfold maxLevelCost
  by_cases h : (edges m (fun e => m.level (m.src e) = l)).Nonempty
  · obtain ⟨e, he, h'⟩ := maxOf_mem (f := cost) h
    rw [h']
    simp only [edges, Finset.mem_filter, Finset.mem_Icc] at he
    exact hc e he.1.1 he.1.2
  · unfold maxOf; rw [dif_neg h]

theorem tailCost_nonneg (L i : Int) : 0 ≤ tailCost m cost L i :=
  Finset.sum_nonneg (fun l _ => maxLevelCost_nonneg hc l)

theorem cost_le_level {e : Int} (a : 1 ≤ e) (b : e ≤ m.E) : cost e ≤ maxLevelCost m cost (m.level (m.src e)) := by
  apply le_maxOf
  simp only [edges, Finset.mem_filter, Finset.mem_Icc]
  exact ⟨⟨a, b⟩, trivial⟩

theorem minLevelCost_zero (l : Int) : minLevelCost m cost l = 0 := by
  unfold minLevelCost
  have : edges m (fun e => m.level (m.src e) = l ∧ cost e < 0) = ∅ := by
    rw [Finset.eq_empty_iff_forall_notMem]
    intro e he
    simp only [edges, Finset.mem_filter, Finset.mem_Icc] at he
    have := hc e he.1.1 he.1.2
    omega
  rw [this]
  rfl

theorem inCost_iff (L v : Int) : inCost m cost L v ↔ 0 ≤ v ∧ v ≤ L * (maxCost m cost L + 1) := by
  unfold inCost
  rw [Finset.sum_eq_zero (fun l _ => minLevelCost_zero hc l)]

theorem maxCost_nonneg (L : Int) : 0 ≤ maxCost m cost L :=
  Finset.sum_nonneg (fun l _ => maxLevelCost_nonneg hc l)

variable (hl : m.Layered xs.len) (h1 : xs.lo = 1) (h2 : 0 ≤ xs.hi)
include hl h1 h2

theorem leadsC_bound (w : List Int) : ∀ n t, w = sfx xs (lv m xs.len n) → m.CostPath cost n w t →
    t ≤ tailCost m cost xs.hi (lv m xs.len n) := by
  induction w with
  | nil =>
    intro n t _ h
    have := tailCost_nonneg (m := m) hc xs.hi (lv m xs.len n)
    have := h.2
    omega
  | cons x w ih =>
    intro n t hw ⟨e, a, b, c, d, h⟩
    have hle : lv m xs.len n ≤ xs.hi := by
      by_contra hcon
      rw [sfx_nil (by omega)] at hw
      cases hw
    rw [sfx_cons hle] at hw
    simp only [List.cons.injEq] at hw
    have e1 := src_lv hl a b
    have e2 := dst_lv hl a b
    rw [c] at e1 e2
    rw [tailCost_step _ _ hle]
    have := ih (m.dst e) _ (by rw [e2, ← e1]; exact hw.2) h
    rw [e2, ← e1] at this
    have q := cost_le_level hc a b
    rw [c, ← e1] at q
    omega

theorem reachC_bound {n c : Int} (h : ReachC m xs cost n c) :
    0 ≤ c ∧ c + tailCost m cost xs.hi (lv m xs.len n) ≤ maxCost m cost xs.len := by
  induction h with
  | root =>
    rw [root_lv hl]
    unfold tailCost maxCost
    rw [len_hi h1 h2]; omega
  | step e c a b hr hin ih =>
    have hi := (Arr.mem_idx _ _).1 hin.1
    rw [src_lv hl a b, tailCost_step _ _ hi.2] at ih
    rw [dst_lv hl a b]
    have q := cost_le_level hc a b
    have := hc e a b
    omega

theorem weight_of_on {be : Int → Prop} {e : Int} (h : be e) : weight m cost xs.len be e = cost e := by
  classical
  unfold weight b2i
  rw [if_neg (by simpa using h)]
  simp

theorem weight_of_off {be : Int → Prop} {e : Int} (h : ¬ be e) :
    weight m cost xs.len be e = maxCost m cost xs.len + 1 := by
  classical
  unfold weight b2i
  rw [if_pos h]
  omega

variable (hd : m.Deterministic)
include hd

/-- The distance of a true node is the cost of the rest of the path. -/
theorem ln_leads (bn be : Int → Prop) (ln : Int → Int) (ho : mddOut m bn be)
    (he : ∀ e, 1 ≤ e → e ≤ m.E → be e → bn (m.dst e)) (hlab : mddLabel m xs be) (h0 : ln 0 = 0)
    (hpos : ∀ n, 0 ≤ n → n ≤ m.N → 0 ≤ ln n)
    (hmin : ∀ n, 1 ≤ n → n ≤ m.N →
      IsMin (edges m (fun e => m.src e = n)) (fun e => ln (m.dst e) + weight m cost xs.len be e) (ln n))
    (hroot : bn 1) (k : Nat) : ∀ n, 0 ≤ n → n ≤ m.N → bn n → 1 ≤ lv m xs.len n → xs.hi + 1 - lv m xs.len n = k →
      LeadsC m xs cost n (ln n) := by
  have hz : LeadsC m xs cost 0 (ln 0) := by
    unfold LeadsC lv
    rw [if_pos rfl, sfx_nil (by rw [len_hi h1 h2]; omega), h0]
    exact ⟨rfl, rfl⟩
  induction k with
  | zero =>
    intro n a b c _ d
    by_cases hn : n = 0
    · rw [hn]; exact hz
    · exfalso
      obtain ⟨e, q1, q2, q3, q4⟩ := ho n (by omega) b c
      have q5 := (Arr.mem_idx _ _).1 (hlab e q1 q2 q4).1
      rw [q3] at q5
      rw [show lv m xs.len n = m.level n from if_neg hn] at d
      push_cast at d
      omega
  | succ k ih =>
    intro n a b c p d
    by_cases hn : n = 0
    · rw [hn]; exact hz
    · obtain ⟨e, q1, q2, q3, q4⟩ := ho n (by omega) b c
      have hin := hlab e q1 q2 q4
      have hdst := hl.dst e q1 q2
      have el : lv m xs.len n = m.level n := if_neg hn
      have ed := dst_lv hl q1 q2
      rw [q3] at ed
      have hi := (Arr.mem_idx _ _).1 hin.1
      rw [q3] at hi
      have hL := ih (m.dst e) hdst.1 hdst.2 (he e q1 q2 q4) (by omega) (by push_cast at d; omega)
      obtain ⟨⟨f, hf, hfv⟩, hle⟩ := hmin n (by omega) b
      simp only [edges, Finset.mem_filter, Finset.mem_Icc] at hf hle
      dsimp only at hfv
      have hb := leadsC_bound hc hl h1 h2 _ _ _ rfl hL
      have hq := cost_le_level hc q1 q2
      rw [q3] at hq
      have ht := tailCost_step (m := m) (cost := cost) xs.hi (m.level n) hi.2
      have hM : tailCost m cost xs.hi (m.level n) ≤ maxCost m cost xs.len := by
        unfold tailCost maxCost
        rw [len_hi h1 h2]
        apply Finset.sum_le_sum_of_subset_of_nonneg
        · intro x hx
          rw [Finset.mem_Icc] at hx ⊢
          omega
        · intro l _ _; exact maxLevelCost_nonneg hc l
      rw [ed] at hb
      have hln : ln n = ln (m.dst e) + cost e := by
        by_cases hbf : be f
        · have hinf := hlab f hf.1.1 hf.1.2 hbf
          have : e = f := hd e f q1 q2 hf.1.1 hf.1.2 (by rw [q3, hf.2])
            ⟨xs (m.level (m.src e)), hin.2, by rw [q3, ← hf.2]; exact hinf.2⟩
          rw [hfv, ← this, weight_of_on hc hl h1 h2 q4]
        · exfalso
          rw [weight_of_off hc hl h1 h2 hbf] at hfv
          have h3 := hle e ⟨⟨q1, q2⟩, q3⟩
          rw [weight_of_on hc hl h1 h2 q4] at h3
          have h4 := hl.dst f hf.1.1 hf.1.2
          have := hpos _ h4.1 h4.2
          omega
      unfold LeadsC
      rw [el, sfx_cons hi.2]
      refine ⟨e, q1, q2, q3, by have := hin.2; rwa [q3] at this, ?_⟩
      rw [show ln n - cost e = ln (m.dst e) by omega]
      unfold LeadsC at hL
      rwa [ed] at hL

theorem fznCostMdd_sound (total : Int) (dom : Int → Finset Int) (h : fznCostMdd m xs cost total dom) :
    m.CostPath cost 1 (elems xs) total := by
  obtain ⟨bn, be, ln, un, hr, _, hb1, ho, he, hlab, _, _, _, _, _, h0, _, hmin, _, _, ht⟩ := h
  have := ln_leads hc hl h1 h2 hd bn be ln ho (fun e a b => (he e a b).1) hlab h0
    (fun n a b => ((inCost_iff hc _ _).1 (hr n a b).1).1) hmin hb1 xs.hi.toNat 1 (by omega) hl.root.1 hb1
    (by rw [root_lv hl]) (by rw [root_lv hl]; omega)
  unfold LeadsC at this
  rw [root_lv hl, sfx_one h1] at this
  rw [ht]; exact this

/-! ## Existence of the distances -/

variable (hf : m.Full)

omit hd in
include hf in
theorem level_le (n : Int) (a : 1 ≤ n) (b : n ≤ m.N) : m.level n ≤ xs.hi := by
  by_contra c
  have hne : ((Finset.Icc 1 m.N)).Nonempty := ⟨n, Finset.mem_Icc.2 ⟨a, b⟩⟩
  obtain ⟨x, hx, hmax⟩ := Finset.exists_max_image (Finset.Icc 1 m.N) m.level hne
  rw [Finset.mem_Icc] at hx
  have hn := hmax n (Finset.mem_Icc.2 ⟨a, b⟩)
  obtain ⟨e, q1, q2, q3⟩ := hf.1 x hx.1 hx.2
  have hs := hl.step e q1 q2
  have hdd := hl.dst e q1 q2
  rw [q3, len_hi h1 h2] at hs
  by_cases hz : m.dst e = 0
  · rw [if_pos hz] at hs; omega
  · rw [if_neg hz] at hs
    have := hmax (m.dst e) (Finset.mem_Icc.2 ⟨by omega, hdd.2⟩)
    omega

omit hd in
include hf in
theorem level_ge (n : Int) (a : 1 ≤ n) (b : n ≤ m.N) : 1 ≤ m.level n := by
  by_contra c
  have hne : ((Finset.Icc 1 m.N)).Nonempty := ⟨n, Finset.mem_Icc.2 ⟨a, b⟩⟩
  obtain ⟨x, hx, hmin⟩ := Finset.exists_min_image (Finset.Icc 1 m.N) m.level hne
  rw [Finset.mem_Icc] at hx
  have hn := hmin n (Finset.mem_Icc.2 ⟨a, b⟩)
  have hx1 : x ≠ 1 := by rintro rfl; have := hl.root.2; omega
  obtain ⟨e, q1, q2, q3⟩ := hf.2 x (by omega) hx.2
  have hs := hl.step e q1 q2
  have hss := hl.src e q1 q2
  rw [q3, if_neg (by omega)] at hs
  have := hmin (m.src e) (Finset.mem_Icc.2 hss)
  omega

omit hd in
include hf in
theorem weight_bound (be : Int → Prop) {e : Int} (a : 1 ≤ e) (b : e ≤ m.E) :
    0 ≤ weight m cost xs.len be e ∧ weight m cost xs.len be e ≤ maxCost m cost xs.len + 1 := by
  have hs := hl.src e a b
  have l1 := level_ge hc hl h1 h2 hf _ hs.1 hs.2
  have l2 := level_le hc hl h1 h2 hf _ hs.1 hs.2
  have : cost e ≤ maxCost m cost xs.len := by
    refine le_trans (cost_le_level hc a b) ?_
    unfold maxCost
    apply Finset.single_le_sum (f := maxLevelCost m cost) (fun l _ => maxLevelCost_nonneg hc l)
    rw [Finset.mem_Icc, len_hi h1 h2]; exact ⟨l1, l2⟩
  have := hc e a b
  by_cases h : be e
  · rw [weight_of_on hc hl h1 h2 h]; omega
  · rw [weight_of_off hc hl h1 h2 h]; omega

omit hc hl h1 h2 hd in
/-- Distances from the true node, by level. -/
noncomputable def lnF (m : Diagram) (w : Int → Int) : Nat → Int → Int
  | 0, _ => 0
  | k + 1, n => minOf (edges m (fun e => m.src e = n)) (fun e => lnF m w k (m.dst e) + w e)

omit hc hl h1 h2 hd in
/-- Distances from the root, by level. -/
noncomputable def unF (m : Diagram) (w : Int → Int) : Nat → Int → Int
  | 0, _ => 0
  | k + 1, n => minOf (edges m (fun e => m.dst e = n)) (fun e => unF m w k (m.src e) + w e)

omit hc hl h1 h2 hd in
theorem isMin_minOf {S : Finset Int} {f : Int → Int} (h : S.Nonempty) : IsMin S f (minOf S f) := by
  obtain ⟨i, hi, e⟩ := minOf_mem (f := f) h
  exact ⟨⟨i, hi, e⟩, fun j hj => minOf_le hj⟩

omit hd in
include hf in
theorem lnF_bound (be : Int → Prop) (k : Nat) : ∀ n, 0 ≤ n → n ≤ m.N → lv m xs.len n + k = xs.hi + 1 →
    0 ≤ lnF m (weight m cost xs.len be) k n ∧
    lnF m (weight m cost xs.len be) k n ≤ k * (maxCost m cost xs.len + 1) := by
  induction k with
  | zero => intro n _ _ _; simp [lnF]
  | succ k ih =>
    intro n a b c
    have hn : n ≠ 0 := by
      rintro rfl
      unfold lv at c
      rw [if_pos rfl, len_hi h1 h2] at c
      push_cast at c; omega
    obtain ⟨e, q1, q2, q3⟩ := hf.1 n (by omega) b
    have hne : (edges m (fun e => m.src e = n)).Nonempty :=
      ⟨e, by simp only [edges, Finset.mem_filter, Finset.mem_Icc]; exact ⟨⟨q1, q2⟩, q3⟩⟩
    obtain ⟨f, hff, e1⟩ := minOf_mem (f := fun e => lnF m (weight m cost xs.len be) k (m.dst e) +
      weight m cost xs.len be e) hne
    simp only [lnF]
    rw [e1]
    simp only [edges, Finset.mem_filter, Finset.mem_Icc] at hff
    have hdd := hl.dst f hff.1.1 hff.1.2
    have ed := dst_lv hl hff.1.1 hff.1.2
    have el : lv m xs.len n = m.level n := if_neg hn
    rw [hff.2, ← el] at ed
    have := ih (m.dst f) hdd.1 hdd.2 (by push_cast at c; omega)
    have hw := weight_bound hc hl h1 h2 hf be hff.1.1 hff.1.2
    push_cast
    constructor
    · omega
    · linarith

omit hd in
include hf in
theorem unF_bound (be : Int → Prop) (k : Nat) : ∀ n, 1 ≤ n → n ≤ m.N → m.level n = k + 1 →
    0 ≤ unF m (weight m cost xs.len be) k n ∧
    unF m (weight m cost xs.len be) k n ≤ k * (maxCost m cost xs.len + 1) := by
  induction k with
  | zero => intro n _ _ _; simp [unF]
  | succ k ih =>
    intro n a b c
    have hn : n ≠ 1 := by
      rintro rfl
      rw [hl.root.2] at c
      push_cast at c; omega
    obtain ⟨e, q1, q2, q3⟩ := hf.2 n (by omega) b
    have hne : (edges m (fun e => m.dst e = n)).Nonempty :=
      ⟨e, by simp only [edges, Finset.mem_filter, Finset.mem_Icc]; exact ⟨⟨q1, q2⟩, q3⟩⟩
    obtain ⟨f, hff, e1⟩ := minOf_mem (f := fun e => unF m (weight m cost xs.len be) k (m.src e) +
      weight m cost xs.len be e) hne
    simp only [unF]
    rw [e1]
    simp only [edges, Finset.mem_filter, Finset.mem_Icc] at hff
    have hss := hl.src f hff.1.1 hff.1.2
    have ed := hl.step f hff.1.1 hff.1.2
    rw [hff.2, if_neg (by omega)] at ed
    have := ih (m.src f) hss.1 hss.2 (by push_cast at c; omega)
    have hw := weight_bound hc hl h1 h2 hf be hff.1.1 hff.1.2
    push_cast
    constructor
    · omega
    · linarith

/-- The cost of the path to a node. -/
theorem un_reach (un : Int → Int) (hu : un 1 = 0) (hpos : ∀ n, 0 ≤ n → n ≤ m.N → 0 ≤ un n)
    (hmin : ∀ n, 2 ≤ n → n ≤ m.N →
      IsMin (edges m (fun e => m.dst e = n)) (fun e => un (m.src e) + weight m cost xs.len (OnE m xs) e) (un n))
    {n : Int} (hr : Reach m xs n) : n ≠ 0 → Leads m xs n → ReachC m xs cost n (un n) := by
  induction hr with
  | root => intro _ _; rw [hu]; exact ReachC.root
  | step e a b hr hin ih =>
    intro hn hle
    have hls := leads_of hl a b hin hle
    have hs := hl.src e a b
    have hdd := hl.dst e a b
    have hi := (Arr.mem_idx _ _).1 hin.1
    have hR := ReachC.step (cost := cost) e _ a b (ih (by omega) hls) hin
    have hbd := reachC_bound hc hl h1 h2 hR
    have htl := tailCost_nonneg (m := m) hc xs.hi (lv m xs.len (m.dst e))
    have hone : m.dst e ≠ 1 := by
      intro h
      have := dst_lv hl a b
      rw [h, root_lv hl] at this
      omega
    have honE : OnE m xs e := ⟨⟨hr, hls⟩, hin, Reach.step e a b hr hin, hle⟩
    obtain ⟨⟨f, hff, hfv⟩, hmn⟩ := hmin (m.dst e) (by omega) hdd.2
    simp only [edges, Finset.mem_filter, Finset.mem_Icc] at hff hmn
    dsimp only at hfv
    have : un (m.dst e) = un (m.src e) + cost e := by
      by_cases hbf : OnE m xs f
      · have es := dst_lv hl a b
        have es' := dst_lv hl hff.1.1 hff.1.2
        rw [hff.2, es] at es'
        have hsrc : m.src e = m.src f := by
          apply reach_unique hl hd h1 h2 (m.level (m.src e)).toNat _ _ hr hbf.1.1
          · rw [src_lv hl a b]; omega
          · rw [src_lv hl hff.1.1 hff.1.2]; omega
        have : e = f := hd e f a b hff.1.1 hff.1.2 hsrc
          ⟨xs (m.level (m.src e)), hin.2, by rw [hsrc]; exact hbf.2.1.2⟩
        rw [hfv, ← this, weight_of_on hc hl h1 h2 honE]
      · exfalso
        rw [weight_of_off hc hl h1 h2 hbf] at hfv
        have h3 := hmn e ⟨⟨a, b⟩, rfl⟩
        rw [weight_of_on hc hl h1 h2 honE] at h3
        have h4 := hl.src f hff.1.1 hff.1.2
        have := hpos (m.src f) (by omega) h4.2
        omega
    rw [this]; exact hR

include hf in
theorem fznCostMdd_complete (total : Int) (dom : Int → Finset Int) (h : m.CostPath cost 1 (elems xs) total) :
    fznCostMdd m xs cost total dom := by
  have hp : Leads m xs 1 := (leads_one hl h1 h2).2 (path_of_cost _ _ _ h)
  have hM := maxCost_nonneg (m := m) hc xs.len
  have hL := hi_pos hl h1 h2 hp
  obtain ⟨a1, a2, a3, a4, a5, a6, a7, _⟩ := on_sat hl h1 h2 hp ∅
  let w := weight m cost xs.len (OnE m xs)
  let ln : Int → Int := fun n => lnF m w (xs.hi + 1 - lv m xs.len n).toNat n
  let un : Int → Int := fun n => if n = 0 then 0 else unF m w (m.level n - 1).toNat n
  have lvb : ∀ n, 0 ≤ n → n ≤ m.N → 1 ≤ lv m xs.len n ∧ lv m xs.len n ≤ xs.hi + 1 ∧ (n ≠ 0 → lv m xs.len n ≤ xs.hi) := by
    intro n a b
    unfold lv
    by_cases hn : n = 0
    · rw [if_pos hn, len_hi h1 h2]; omega
    · rw [if_neg hn]
      have := level_ge hc hl h1 h2 hf n (by omega) b
      have := level_le hc hl h1 h2 hf n (by omega) b
      omega
  have lnb : ∀ n, 0 ≤ n → n ≤ m.N → 0 ≤ ln n ∧ ln n ≤ xs.len * (maxCost m cost xs.len + 1) := by
    intro n a b
    have q := lvb n a b
    have := lnF_bound hc hl h1 h2 hf (OnE m xs) (xs.hi + 1 - lv m xs.len n).toNat n a b (by omega)
    refine ⟨this.1, le_trans this.2 ?_⟩
    rw [len_hi h1 h2]
    rw [len_hi h1 h2] at hM q
    apply mul_le_mul_of_nonneg_right
    · omega
    · omega
  have unb : ∀ n, 0 ≤ n → n ≤ m.N → 0 ≤ un n ∧ un n ≤ xs.len * (maxCost m cost xs.len + 1) := by
    intro n a b
    by_cases hn : n = 0
    · have e : un n = 0 := if_pos hn
      rw [e]
      refine ⟨le_refl _, mul_nonneg (len_nonneg xs) (by omega)⟩
    · have e : un n = unF m w (m.level n - 1).toNat n := if_neg hn
      have q1 := level_ge hc hl h1 h2 hf n (by omega) b
      have q2 := level_le hc hl h1 h2 hf n (by omega) b
      have := unF_bound hc hl h1 h2 hf (OnE m xs) (m.level n - 1).toNat n (by omega) b (by omega)
      rw [e]
      refine ⟨this.1, le_trans this.2 ?_⟩
      rw [len_hi h1 h2]
      rw [len_hi h1 h2] at hM
      apply mul_le_mul_of_nonneg_right
      · omega
      · omega
  have ln0 : ln 0 = 0 := by
    show lnF m w (xs.hi + 1 - lv m xs.len 0).toNat 0 = 0
    rw [show (xs.hi + 1 - lv m xs.len 0).toNat = 0 by unfold lv; rw [if_pos rfl, len_hi h1 h2]; omega]
    rfl
  have un1 : un 1 = 0 := by
    show (if (1 : Int) = 0 then 0 else unF m w (m.level 1 - 1).toNat 1) = 0
    rw [if_neg (by omega), hl.root.2]
    rfl
  have lnmin : ∀ n, 1 ≤ n → n ≤ m.N → IsMin (edges m (fun e => m.src e = n)) (fun e => ln (m.dst e) + w e) (ln n) := by
    intro n a b
    have q := (lvb n (by omega) b).2.2 (by omega)
    obtain ⟨e, q1, q2, q3⟩ := hf.1 n a b
    have hne : (edges m (fun e => m.src e = n)).Nonempty :=
      ⟨e, by simp only [edges, Finset.mem_filter, Finset.mem_Icc]; exact ⟨⟨q1, q2⟩, q3⟩⟩
    have hk : (xs.hi + 1 - lv m xs.len n).toNat = (xs.hi - lv m xs.len n).toNat + 1 := by omega
    have e1 : ln n = minOf (edges m (fun e => m.src e = n)) (fun e => lnF m w (xs.hi - lv m xs.len n).toNat (m.dst e) + w e) := by
      show lnF m w (xs.hi + 1 - lv m xs.len n).toNat n = _
      rw [hk]; rfl
    have hmin := isMin_minOf (f := fun e => lnF m w (xs.hi - lv m xs.len n).toNat (m.dst e) + w e) hne
    rw [← e1] at hmin
    have key : ∀ e ∈ edges m (fun e => m.src e = n), lnF m w (xs.hi - lv m xs.len n).toNat (m.dst e) = ln (m.dst e) := by
      intro e he
      simp only [edges, Finset.mem_filter, Finset.mem_Icc] at he
      show _ = lnF m w (xs.hi + 1 - lv m xs.len (m.dst e)).toNat (m.dst e)
      rw [dst_lv hl he.1.1 he.1.2, ← src_lv hl he.1.1 he.1.2, he.2]
      congr 2; omega
    obtain ⟨⟨f, hff, r1⟩, r2⟩ := hmin
    refine ⟨⟨f, hff, ?_⟩, ?_⟩
    · rw [r1]; simp only [key f hff]
    · intro g hg
      have := r2 g hg
      simp only [key g hg] at this
      exact this
  have unmin : ∀ n, 2 ≤ n → n ≤ m.N → IsMin (edges m (fun e => m.dst e = n)) (fun e => un (m.src e) + w e) (un n) := by
    intro n a b
    obtain ⟨e, q1, q2, q3⟩ := hf.2 n a b
    have hne : (edges m (fun e => m.dst e = n)).Nonempty :=
      ⟨e, by simp only [edges, Finset.mem_filter, Finset.mem_Icc]; exact ⟨⟨q1, q2⟩, q3⟩⟩
    have hst := hl.step e q1 q2
    have hse := hl.src e q1 q2
    have hlg := level_ge hc hl h1 h2 hf _ hse.1 hse.2
    rw [q3, if_neg (by omega)] at hst
    have hk : (m.level n - 1).toNat = (m.level n - 2).toNat + 1 := by omega
    have e1 : un n = minOf (edges m (fun e => m.dst e = n)) (fun e => unF m w (m.level n - 2).toNat (m.src e) + w e) := by
      show (if n = 0 then 0 else unF m w (m.level n - 1).toNat n) = _
      rw [if_neg (by omega), hk]; rfl
    have hmin := isMin_minOf (f := fun e => unF m w (m.level n - 2).toNat (m.src e) + w e) hne
    rw [← e1] at hmin
    have key : ∀ e ∈ edges m (fun e => m.dst e = n), unF m w (m.level n - 2).toNat (m.src e) = un (m.src e) := by
      intro e he
      simp only [edges, Finset.mem_filter, Finset.mem_Icc] at he
      have hs := hl.src e he.1.1 he.1.2
      have ht := hl.step e he.1.1 he.1.2
      rw [he.2, if_neg (by omega)] at ht
      show _ = (if m.src e = 0 then 0 else unF m w (m.level (m.src e) - 1).toNat (m.src e))
      rw [if_neg (by omega)]
      congr 2; omega
    obtain ⟨⟨f, hff, r1⟩, r2⟩ := hmin
    refine ⟨⟨f, hff, ?_⟩, ?_⟩
    · rw [r1]; simp only [key f hff]
    · intro g hg
      have := r2 g hg
      simp only [key g hg] at this
      exact this
  have lnlead : ∀ n, 0 ≤ n → n ≤ m.N → On m xs n → LeadsC m xs cost n (ln n) := by
    intro n a b c
    have q := lvb n a b
    exact ln_leads hc hl h1 h2 hd (On m xs) (OnE m xs) ln a3 (fun e a b => (a4 e a b).2) a5 ln0
      (fun n a b => (lnb n a b).1) lnmin a2 (xs.hi + 1 - lv m xs.len n).toNat n a b c q.1 (by omega)
  refine ⟨On m xs, OnE m xs, ln, un, ?_, a1, a2, a3, fun e a b => ⟨(a4 e a b).2, (a4 e a b).2⟩, a5,
    on_taken hl h1 h2 hd hp, a6, a7, ?_, on_one hl h1 h2 hd hp, ln0, un1, lnmin, unmin, ?_, ?_⟩
  · intro n a b
    rw [inCost_iff hc, inCost_iff hc]
    exact ⟨lnb n a b, unb n a b⟩
  · intro i a b d hdm hx
    obtain ⟨_, _, _, _, _, _, _, a8⟩ := on_sat hl h1 h2 hp (dom i)
    exact a8 i a b d hdm hx
  · intro e a b he
    have hs := hl.src e a b
    have hdd := hl.dst e a b
    have hR := ReachC.step (cost := cost) e _ a b
      (un_reach hc hl h1 h2 hd un un1 (fun n a b => (unb n a b).1) unmin he.1.1 (by omega) he.1.2) he.2.1
    have q1 := reachC_bound hc hl h1 h2 hR
    have q2 := leadsC_bound hc hl h1 h2 _ _ _ rfl (lnlead _ hdd.1 hdd.2 he.2.2)
    omega
  · have q := lnlead 1 (by omega) hl.root.1 a2
    unfold LeadsC at q
    rw [root_lv hl, sfx_one h1] at q
    exact cost_unique hd _ _ _ _ h q

end

end MZ.Ext
