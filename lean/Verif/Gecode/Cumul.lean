import Verif.Gecode.Global

/-!
# C92: bins, automata and resources
-/

namespace MZ
namespace Gecode

/-! ## Bins -/

theorem binLoad_shift (bins sizes : List Int) (k j : Int) : binLoad (bins.map (· - k)) sizes j = binLoad bins sizes (k + j) := by
  unfold binLoad
  induction bins generalizing sizes with
  | nil => simp
  | cons b bins ih =>
    cases sizes with
    | nil => simp
    | cons s sizes =>
      simp only [List.map_cons, List.zip_cons_cons, List.sum_cons, ih sizes]
      congr 1
      by_cases h : b = k + j
      · rw [if_pos h, if_pos (by omega)]
      · rw [if_neg h, if_neg (by omega)]

theorem binLoad_zero (bins sizes : List Int) (j : Int) (h : ∀ v ∈ bins, v ≠ j) : binLoad bins sizes j = 0 := by
  unfold binLoad
  apply List.sum_eq_zero
  intro x hx
  obtain ⟨q, hq, rfl⟩ := List.mem_map.mp hx
  rw [if_neg (h q.1 (List.of_mem_zip hq).1)]

theorem packing_shift (k : Int) (loads bins sizes : List Int) :
    BinPacking 0 loads (bins.map (· - k)) sizes ↔ BinPacking k loads bins sizes := by
  unfold BinPacking
  simp only [binLoad_shift, List.mem_map, forall_exists_index, and_imp, forall_apply_eq_imp_iff₂, Int.zero_add]
  constructor
  · rintro ⟨h1, h2⟩; exact ⟨fun v hv => by have := h1 v hv; omega, h2⟩
  · rintro ⟨h1, h2⟩; exact ⟨fun v hv => by have := h1 v hv; omega, h2⟩

theorem packing_pad (k : Nat) (loads bins sizes : List Int) :
    ((∀ v ∈ bins, (k : Int) ≤ v) ∧ BinPacking 0 (List.replicate k 0 ++ loads) bins sizes) ↔ BinPacking k loads bins sizes := by
  unfold BinPacking
  constructor
  · rintro ⟨h0, h1, h2⟩
    refine ⟨fun v hv => ⟨h0 v hv, ?_⟩, fun j l hj => ?_⟩
    · have := (h1 v hv).2; simp only [List.length_append, List.length_replicate] at this; push_cast at this; omega
    · have := h2 (k + j) l (by rw [List.getElem?_append_right (by simp)]; simpa using hj)
      rw [this]; congr 1; push_cast; omega
  · rintro ⟨h1, h2⟩
    refine ⟨fun v hv => (h1 v hv).1, fun v hv => ?_, fun j l hj => ?_⟩
    · have := h1 v hv; simp only [List.length_append, List.length_replicate]; push_cast; omega
    · by_cases hjk : j < k
      · rw [List.getElem?_append_left (by simpa using hjk)] at hj
        have : l = 0 := by
          rw [List.getElem?_replicate, if_pos hjk] at hj; simpa using hj.symm
        rw [this, binLoad_zero]
        intro v hv; have := (h1 v hv).1; omega
      · push Not at hjk
        rw [List.getElem?_append_right (by simpa using hjk), List.length_replicate] at hj
        rw [h2 (j - k) l hj]; congr 1; push_cast [hjk]; omega

/-- Packing items into bins that are numbered from any number, with the loads of the bins. -/
theorem _root_.MZ.C92_bin_packing (D : Doms) (loads bins : List IArg) (sizes : List Int) (k : Int) (hl : ∀ x ∈ loads, x.Safe)
    (hb : ∀ x ∈ bins, x.Safe) (hs : ∀ c ∈ sizes, Small c ∧ 0 ≤ c) (hk : Small k) :
    PostsIn D (p_bin_packing_load loads bins sizes k) (fun a => BinPacking k (ints a loads) (ints a bins) sizes) := by
  have hany : (sizes.any (· < 0)) = false := by
    rw [List.any_eq_false]; intro c hc; have := (hs c hc).2; simp; omega
  simp only [p_bin_packing_load, arg2intvarargs_ok hl, arg2intvarargs_ok hb, Res.ok_bind, int32_small hk,
    arg2intargs_eq (fun c hc => (hs c hc).1), List.replicate_zero, List.nil_append, hany, Bool.false_eq_true, if_false]
  refine postsIn_of _ _ _ (posts_list _ _ (fun a e => ?_))
  have hlow : (∀ c ∈ ((bins.map tm).reverse.map (fun t => Post.rel t .GQ (.const k) none)), c.holds a e) ↔ ∀ v ∈ ints a bins, k ≤ v := by
    simp only [List.mem_map, List.mem_reverse, ints, forall_exists_index, and_imp, forall_apply_eq_imp_iff₂, Post.holds, Reif.holds, IRT.holds,
      tm_val, Term.val, ge_iff_le]
  rw [List.forall_mem_append, hlow]
  simp only [List.mem_singleton, forall_eq, Post.holds, List.map_append, map_tm]
  rcases lt_trichotomy k 0 with h | h | h
  · rw [if_neg (by omega), if_pos h]
    have : ((bins.map tm).map (fun t => Term.sub t (.const k))).map (Term.val a e) = (ints a bins).map (· - k) := by
      simp [ints, Function.comp_def, Term.val]
    rw [this, List.map_nil, List.nil_append, packing_shift]
    exact ⟨fun h => h.2, fun h => ⟨fun v hv => (h.1 v hv).1, h⟩⟩
  · subst h
    simp only [lt_irrefl, if_false, List.map_nil, List.nil_append, map_tm]
    exact ⟨fun h => h.2, fun h => ⟨fun v hv => (h.1 v hv).1, h⟩⟩
  · rw [if_pos h, if_neg (by omega), map_tm]
    have hkn : k = (k.toNat : Int) := by omega
    have : (List.replicate k.toNat (Term.const 0)).map (Term.val a e) = List.replicate k.toNat 0 := by simp [Term.val]
    rw [this]
    have := packing_pad k.toNat (ints a loads) (ints a bins) sizes
    rw [← hkn] at this
    exact this

/-! ## Automata -/

theorem mem_transitions {n s : Nat} {d : List Int} {t : List (Int × Int × Int)} (h : transitions n s d = .ok t) (q a q' : Int) :
    (q, a, q') ∈ t ↔ 1 ≤ q ∧ q ≤ n ∧ 1 ≤ a ∧ a ≤ s ∧ 0 < d.getD ((q - 1) * s + (a - 1)).toNat 0 ∧
      d.getD ((q - 1) * s + (a - 1)).toNat 0 = q' := by
  unfold transitions at h
  split_ifs at h with hl
  simp only [Res.ok.injEq] at h
  subst h
  simp only [List.mem_flatMap, List.mem_range, List.mem_filterMap]
  constructor
  · rintro ⟨i, hi, j, hj, hq⟩
    split_ifs at hq with hd
    simp only [Option.some.injEq, Prod.mk.injEq] at hq
    obtain ⟨rfl, rfl, rfl⟩ := hq
    have e1 : (((i : Int) + 1 - 1) * s + ((j : Int) + 1 - 1)).toNat = i * s + j := by
      have : ((i : Int) + 1 - 1) * s + ((j : Int) + 1 - 1) = ((i * s + j : Nat) : Int) := by push_cast; ring
      rw [this, Int.toNat_natCast]
    rw [e1]
    exact ⟨by omega, by omega, by omega, by omega, hd, rfl⟩
  · rintro ⟨h1, h2, h3, h4, h5, h6⟩
    refine ⟨(q - 1).toNat, by omega, (a - 1).toNat, by omega, ?_⟩
    have e1 : ((q - 1) * s + (a - 1)).toNat = (q - 1).toNat * s + (a - 1).toNat := by
      have : (q - 1) * s + (a - 1) = (((q - 1).toNat * s + (a - 1).toNat : Nat) : Int) := by
        push_cast; rw [Int.toNat_of_nonneg (by omega), Int.toNat_of_nonneg (by omega)]
      rw [this, Int.toNat_natCast]
    rw [e1] at h5 h6
    rw [if_pos h5, h6]
    simp only [Option.some.injEq, Prod.mk.injEq, and_true]
    omega

/-- Automata: a table of successor states. -/
theorem _root_.MZ.C92_regular (D : Doms) (xs : List IArg) (n s : Nat) (d : List Int) (q0 : Int) (F : Finset Int) (hx : ∀ x ∈ xs, x.Safe)
    (hd : ∀ c ∈ d, Small c) (hlen : n * s ≤ d.length) (hq : Small q0) (hF : ∀ f ∈ F, 0 ≤ f ∧ Small f) :
    PostsIn D (p_regular xs n s d q0 F) (fun a => Accepts n s d F q0 (ints a xs)) := by
  obtain ⟨t, ht⟩ : ∃ t, transitions n s d = .ok t := ⟨_, by unfold transitions; rw [if_neg (by omega)]⟩
  have hf : ∀ v, v ∈ (((F.sort (· ≤ ·)).map int32 ++ [-1]).takeWhile (fun v => decide (0 ≤ v))) ↔ v ∈ F := by
    have h1 : (F.sort (· ≤ ·)).map int32 = F.sort (· ≤ ·) := by
      conv_rhs => rw [← List.map_id (F.sort (· ≤ ·))]
      exact List.map_congr_left (fun c hc => int32_small (hF c (by simpa using hc)).2)
    have h2 : (F.sort (· ≤ ·) ++ [-1]).takeWhile (fun v => decide ((0 : Int) ≤ v)) = F.sort (· ≤ ·) := by
      rw [List.takeWhile_append_of_pos (by intro v hv; simpa using (hF v (by simpa using hv)).1)]; simp
    intro v; rw [h1, h2]; simp
  simp only [p_regular, arg2intvarargs_ok hx, arg2intargs_eq hd, List.replicate_zero, List.nil_append, ht, Res.ok_bind, int32_small hq]
  refine postsIn_of _ _ _ (posts_one _ _ (fun a e => ?_))
  simp only [Post.holds, map_tm]
  generalize ints a xs = w
  induction w generalizing q0 with
  | nil => simp only [Run, Accepts, hf]
  | cons x w ih =>
    simp only [Run, Accepts, mem_transitions ht]
    constructor
    · rintro ⟨q', ⟨h1, h2, h3, h4, h5, h6⟩, h7⟩
      subst h6
      have hs : Small (d.getD ((q0 - 1) * s + (x - 1)).toNat 0) := by
        rw [List.getD_eq_getElem?_getD]
        cases hg : d[((q0 - 1) * s + (x - 1)).toNat]? with
        | none => simp [Small]
        | some v => exact hd v (List.mem_of_getElem? hg)
      exact ⟨h1, h2, h3, h4, h5, (ih _ hs).mp h7⟩
    · rintro ⟨h1, h2, h3, h4, h5, h6⟩
      have hs : Small (d.getD ((q0 - 1) * s + (x - 1)).toNat 0) := by
        rw [List.getD_eq_getElem?_getD]
        cases hg : d[((q0 - 1) * s + (x - 1)).toNat]? with
        | none => simp [Small]
        | some v => exact hd v (List.mem_of_getElem? hg)
      exact ⟨_, ⟨h1, h2, h3, h4, h5, rfl⟩, (ih _ hs).mpr h6⟩

/-! ## Resources -/

theorem min_le_val (D : Doms) (a : Asg) (ha : a.In D) (x : IArg) : D.min (tm x) ≤ x.val a := by
  cases x with
  | var x => exact Finset.min'_le _ _ (ha x)
  | lit c => exact le_refl _

theorem val_le_max (D : Doms) (a : Asg) (ha : a.In D) (x : IArg) : x.val a ≤ D.max (tm x) := by
  cases x with
  | var x => exact Finset.le_max' _ _ (ha x)
  | lit c => exact le_refl _

theorem assigned_val (D : Doms) (a : Asg) (ha : a.In D) (x : IArg) (h : D.assigned (tm x) = true) : D.min (tm x) = x.val a := by
  have h1 := min_le_val D a ha x
  have h2 := val_le_max D a ha x
  simp only [Doms.assigned, beq_iff_eq] at h
  omega

/-- What the tasks of a list use. -/
def use (T : List (Int × Int × Int)) (t : Int) : Int := (T.map (fun q => if q.1 ≤ t ∧ t < q.1 + q.2.1 then q.2.2 else 0)).sum

theorem use_nonneg (T : List (Int × Int × Int)) (h : ∀ q ∈ T, 0 ≤ q.2.2) (t : Int) : 0 ≤ use T t := by
  induction T with
  | nil => simp [use]
  | cons p T ih =>
    have hc : use (p :: T) t = (if p.1 ≤ t ∧ t < p.1 + p.2.1 then p.2.2 else 0) + use T t := by simp [use]
    have := ih (fun q hq => h q (List.mem_cons_of_mem p hq))
    have := h p List.mem_cons_self
    rw [hc]; split_ifs <;> omega

theorem use_mem (T : List (Int × Int × Int)) (h : ∀ q ∈ T, 0 ≤ q.2.2) (t : Int) (q : Int × Int × Int) (hq : q ∈ T)
    (hr : q.1 ≤ t ∧ t < q.1 + q.2.1) : q.2.2 ≤ use T t := by
  induction T with
  | nil => simp at hq
  | cons p T ih =>
    have h' := fun q hq => h q (List.mem_cons_of_mem p hq)
    have hn := use_nonneg T h' t
    have hc : use (p :: T) t = (if p.1 ≤ t ∧ t < p.1 + p.2.1 then p.2.2 else 0) + use T t := by simp [use]
    rw [hc]
    rcases List.mem_cons.mp hq with rfl | hq
    · rw [if_pos hr]; omega
    · have := ih h' hq
      have := h p List.mem_cons_self
      split_ifs <;> omega

theorem use_none (T : List (Int × Int × Int)) (t : Int) (h : ∀ q ∈ T, ¬ (q.1 ≤ t ∧ t < q.1 + q.2.1)) : use T t = 0 := by
  unfold use
  apply List.sum_eq_zero
  intro x hx
  obtain ⟨q, hq, rfl⟩ := List.mem_map.mp hx
  rw [if_neg (h q hq)]

theorem use_disj (T : List (Int × Int × Int)) (b : Int) (hb : 0 ≤ b) (h : ∀ q ∈ T, q.2.2 ≤ b)
    (hp : T.Pairwise (fun p q => p.1 + p.2.1 ≤ q.1 ∨ q.1 + q.2.1 ≤ p.1)) (t : Int) : use T t ≤ b := by
  induction T with
  | nil => simpa [use] using hb
  | cons p T ih =>
    have hc : use (p :: T) t = (if p.1 ≤ t ∧ t < p.1 + p.2.1 then p.2.2 else 0) + use T t := by simp [use]
    rw [hc]
    obtain ⟨h1, h2⟩ := List.pairwise_cons.mp hp
    split_ifs with hr
    · rw [use_none T t (fun q hq => by have := h1 q hq; omega)]
      have := h p List.mem_cons_self; omega
    · have := ih (fun q hq => h q (List.mem_cons_of_mem _ hq)) h2; omega

theorem disj_use (T : List (Int × Int × Int)) (b : Int) (hd : ∀ q ∈ T, 0 < q.2.1) (h : ∀ q ∈ T, 0 ≤ q.2.2)
    (hs : T.Pairwise (fun p q => b < p.2.2 + q.2.2)) (hu : ∀ t, use T t ≤ b) :
    T.Pairwise (fun p q => p.1 + p.2.1 ≤ q.1 ∨ q.1 + q.2.1 ≤ p.1) := by
  induction T with
  | nil => exact List.Pairwise.nil
  | cons p T ih =>
    obtain ⟨h1, h2⟩ := List.pairwise_cons.mp hs
    have h' := fun q hq => h q (List.mem_cons_of_mem p hq)
    have hc : ∀ t, use (p :: T) t = (if p.1 ≤ t ∧ t < p.1 + p.2.1 then p.2.2 else 0) + use T t := by intro t; simp [use]
    have hp0 := h p List.mem_cons_self
    refine List.pairwise_cons.mpr ⟨fun q hq => ?_, ih (fun q hq => hd q (List.mem_cons_of_mem _ hq)) h' h2 (fun t => ?_)⟩
    · by_contra hno
      push Not at hno
      have d1 := hd p List.mem_cons_self
      have d2 := hd q (List.mem_cons_of_mem _ hq)
      have hq0 := hu (max p.1 q.1)
      rw [hc, if_pos (by omega)] at hq0
      have := use_mem T h' (max p.1 q.1) q hq (by omega)
      have := h1 q hq
      omega
    · have := hu t; rw [hc] at this
      split_ifs at this <;> omega

theorem minHeights_le (L : List Int) : ∀ h ∈ L, (minHeights L).1 ≤ h := by
  induction L with
  | nil => simp
  | cons x L ih =>
    intro h hh
    simp only [minHeights]
    rcases List.mem_cons.mp hh with rfl | hh
    · split_ifs <;> simp only [] <;> omega
    · have := ih h hh
      split_ifs <;> simp only [] <;> omega

theorem minHeights_last (L : List Int) (l : Int) (hl : l < 2147483647) (h : ∀ x ∈ L, l ≤ x) :
    (minHeights (L ++ [l])).1 = l ∧ ∀ x ∈ L, (minHeights (L ++ [l])).2 ≤ x := by
  induction L with
  | nil => simp [minHeights, hl]
  | cons x L ih =>
    obtain ⟨h1, h2⟩ := ih (fun y hy => h y (List.mem_cons_of_mem _ hy))
    have hx := h x List.mem_cons_self
    simp only [List.cons_append, minHeights]
    refine ⟨?_, fun y hy => ?_⟩
    · split_ifs <;> simp only [] <;> omega
    · rcases List.mem_cons.mp hy with rfl | hy
      · split_ifs <;> simp only [] <;> omega
      · have := h2 y hy
        split_ifs <;> simp only [] <;> omega

theorem double_gt (b m : Int) (h : m > b.tdiv 2) : b < m + m := by
  rcases le_total 0 b with hb | hb
  · rw [Int.tdiv_eq_ediv_of_nonneg hb] at h; omega
  · have : b.tdiv 2 = -((-b).tdiv 2) := by rw [Int.neg_tdiv]; omega
    rw [this, Int.tdiv_eq_ediv_of_nonneg (by omega)] at h; omega

/-- What `disjunctive` decides is that two tasks never run at the same time. -/
theorem disjunctive_ok (L : List Int) (l bmax : Int) (hne : L ≠ []) (h : ∀ x ∈ L, l ≤ x) (hbig : ∀ x ∈ L ++ [l], x ≤ 1073741823) :
    ∃ r, disjunctive (minHeights (L ++ [l])) bmax = .ok r ∧ (r = true → (L ++ [l]).Pairwise (fun x y => bmax < x + y)) := by
  have hl := hbig l (by simp)
  obtain ⟨h1, h2⟩ := minHeights_last L l (by omega) h
  obtain ⟨x0, hx0⟩ := List.exists_mem_of_ne_nil L hne
  have hx1 := hbig x0 (by simp [hx0])
  have hx2 := h2 x0 hx0
  generalize minHeights (L ++ [l]) = m at *
  unfold disjunctive
  split_ifs with c1 c2 c3
  · refine ⟨true, rfl, fun _ => ?_⟩
    have := double_gt bmax m.1 c1
    have all : ∀ x ∈ L ++ [l], l ≤ x := by
      intro x hx; rcases List.mem_append.mp hx with hx | hx
      · exact h x hx
      · simp at hx; omega
    exact List.pairwise_of_forall_mem_list (fun x hx y hy => by have := all x hx; have := all y hy; omega)
  · omega
  · refine ⟨_, rfl, fun hr => ?_⟩
    simp only [decide_eq_true_eq] at hr
    have hlo : ∀ x ∈ L, bmax < l + x := fun x hx => by have := h2 x hx; omega
    refine List.pairwise_append.mpr ⟨?_, by simp, fun x hx y hy => ?_⟩
    · exact List.pairwise_of_forall_mem_list (fun x hx y hy => by
        have := h x hx; have := h y hy; have := hlo x hx; have := hlo y hy; omega)
    · simp at hy; subst hy; have := hlo x hx; omega
  · exact ⟨false, rfl, by simp⟩

theorem span_le (D : Doms) (T : List (Term × Term)) (q : Term × Term) (hq : q ∈ T) :
    (span D T).1 ≤ D.min q.1 ∧ D.max q.1 + D.max q.2 ≤ (span D T).2 := by
  induction T with
  | nil => simp at hq
  | cons p T ih =>
    simp only [span]
    rcases List.mem_cons.mp hq with rfl | hq
    · omega
    · have := ih hq; omega

theorem dot_ones (s d h : List Term) (f : Term × Term × Term → Int) (h1 : s.length = d.length) (h2 : s.length = h.length) :
    dot (s.map (fun _ => 1)) ((List.zip s (List.zip d h)).map f) = ((List.zip s (List.zip d h)).map f).sum := by
  unfold dot
  have : (s.map (fun _ => (1 : Int))) = (List.zip s (List.zip d h)).map (fun _ => 1) := by
    simp [List.map_const', ← h1, ← h2]
  rw [this, List.zipWith_map]
  congr 1
  induction List.zip s (List.zip d h) with
  | nil => rfl
  | cons x l ih => simp [ih]

theorem zip3_map (f : Term → Int) (s d h : List Term) :
    List.zip (s.map f) (List.zip (d.map f) (h.map f)) = (List.zip s (List.zip d h)).map (fun q => (f q.1, f q.2.1, f q.2.2)) := by
  rw [List.zip_map, List.zip_map]; rfl

theorem zip_fst (s d h : List Int) (h1 : s.length = d.length) (h2 : s.length = h.length) :
    List.zip s d = (List.zip s (List.zip d h)).map (fun q => (q.1, q.2.1)) := by
  induction s generalizing d h with
  | nil => simp
  | cons x s ih =>
    cases d with
    | nil => simp at h1
    | cons y d =>
      cases h with
      | nil => simp at h2
      | cons z h => simp [← ih d h (by simpa using h1) (by simpa using h2)]

theorem zip_third (s d h : List Int) (h1 : s.length = d.length) (h2 : s.length = h.length) :
    (List.zip s (List.zip d h)).map (fun q => q.2.2) = h := by
  induction s generalizing d h with
  | nil => simp only [List.length_nil] at h2; simp [List.length_eq_zero_iff.mp h2.symm]
  | cons x s ih =>
    cases d with
    | nil => simp at h1
    | cons y d =>
      cases h with
      | nil => simp at h2
      | cons z h => simp [ih d h (by simpa using h1) (by simpa using h2)]

theorem use_assigned (T : List (Int × Int × Int)) (b : Int) (hne : T ≠ []) (hd : ∀ q ∈ T, 0 < q.2.1) (h : ∀ q ∈ T, 0 ≤ q.2.2)
    (hu : ∀ t, (∃ q ∈ T, q.1 ≤ t ∧ t < q.1 + q.2.1) → use T t ≤ b) : ∀ t, use T t ≤ b := by
  intro t
  by_cases hr : ∃ q ∈ T, q.1 ≤ t ∧ t < q.1 + q.2.1
  · exact hu t hr
  · push Not at hr
    rw [use_none T t (fun q hq hc => by have := hr q hq hc.1; omega)]
    obtain ⟨q, hq⟩ := List.exists_mem_of_ne_nil T hne
    have := hu q.1 ⟨q, hq, le_refl _, by have := hd q hq; omega⟩
    have := use_nonneg T h q.1
    omega

/-- Tasks on a resource.  The smallest height has to be that of the last task: see `C92_cumulative_fails`. -/
theorem _root_.MZ.C92_cumulative_partial (D : Doms) (ss ds hs : List IArg) (l : IArg) (b : IArg) (h1 : ss.length = ds.length)
    (h2 : ss.length = (hs ++ [l]).length) (hss : ∀ x ∈ ss, x.Safe) (hds : ∀ x ∈ ds, x.Safe) (hhs : ∀ x ∈ hs ++ [l], x.Safe) (hb : b.Safe)
    (hdur : ∀ x ∈ ds, 0 < D.min (tm x)) (hh : ∀ x ∈ hs ++ [l], 0 ≤ D.min (tm x) ∧ D.min (tm x) ≤ 1073741823) (hne : hs ≠ [])
    (hlast : ∀ x ∈ hs, D.min (tm l) ≤ D.min (tm x)) :
    PostsIn D (p_cumulative D ss ds (hs ++ [l]) b) (fun a => Cumulative (ints a ss) (ints a ds) (ints a (hs ++ [l])) (b.val a)) := by
  have hmin : ((hs ++ [l]).map tm).map D.min = hs.map (fun x => D.min (tm x)) ++ [D.min (tm l)] := by simp [Function.comp_def]
  obtain ⟨r, hr, hpair⟩ := disjunctive_ok (hs.map (fun x => D.min (tm x))) (D.min (tm l)) (D.max (tm b)) (by simpa using hne)
    (by simpa using hlast) (by
      intro x hx
      rcases List.mem_append.mp hx with hx | hx
      · obtain ⟨y, hy, rfl⟩ := List.mem_map.mp hx; exact (hh y (by simp [hy])).2
      · simp at hx; subst hx; exact (hh l (by simp)).2)
  rw [← hmin] at hr hpair
  have hne' : hs ++ [l] ≠ [] := by simp
  generalize hs ++ [l] = H at *
  simp only [p_cumulative, arg2intvarargs_ok hss, arg2intvarargs_ok hds, arg2intvarargs_ok hhs, Res.ok_bind, arg2intvar_eq hb, List.length_map]
  rw [if_neg (by omega), hr, Res.ok_bind]
  -- the tasks
  have key : ∀ a : Asg, a.In D → ∃ T : List (Int × Int × Int), T = List.zip (ints a ss) (List.zip (ints a ds) (ints a H)) ∧ T ≠ [] ∧
      (∀ q ∈ T, 0 < q.2.1) ∧ (∀ q ∈ T, 0 ≤ q.2.2) ∧ List.zip (ints a ss) (ints a ds) = T.map (fun q => (q.1, q.2.1)) ∧
      T.map (fun q => q.2.2) = ints a H := by
    intro a ha
    refine ⟨_, rfl, ?_, ?_, ?_, zip_fst _ _ _ (by simp [ints, h1]) (by simp [ints, h2]), zip_third _ _ _ (by simp [ints, h1]) (by simp [ints, h2])⟩
    · intro hT
      have hlen := congrArg List.length hT
      have := List.length_pos_of_ne_nil hne'
      simp only [List.length_zip, ints, List.length_map, List.length_nil] at hlen
      omega
    · intro q hq
      have := (List.of_mem_zip (List.of_mem_zip hq).2).1
      obtain ⟨x, hx, hxe⟩ := List.mem_map.mp this
      rw [← hxe]
      have := hdur x hx; have := min_le_val D a ha x; omega
    · intro q hq
      have := (List.of_mem_zip (List.of_mem_zip hq).2).2
      obtain ⟨x, hx, hxe⟩ := List.mem_map.mp this
      rw [← hxe]
      have := (hh x hx).1; have := min_le_val D a ha x; omega
  have hcum : ∀ a : Asg, Cumulative (ints a ss) (ints a ds) (ints a H) (b.val a) ↔
      ∀ t, use (List.zip (ints a ss) (List.zip (ints a ds) (ints a H))) t ≤ b.val a := fun a => Iff.rfl
  split_ifs with c1 c2 c3 c4
  · exact absurd (by simpa using c2) hne'
  · refine ⟨_, rfl, fun a ha => ?_⟩
    rw [posts_two _ _ (fun a => (∀ v ∈ ints a H, v ≤ b.val a) ∧ Disjunctive (ints a ss) (ints a ds))
      (fun a e => by simp only [Post.holds, map_tm, tm_val]) a]
    simp only []
    rw [hcum]
    obtain ⟨T, hT, hT0, hTd, hTh, hz, hz3⟩ := key a ha
    rw [← hT]
    have hbm := val_le_max D a ha b
    unfold Disjunctive
    rw [hz, List.pairwise_map, ← hz3]
    constructor
    · rintro ⟨hm, hp⟩
      have hm' : ∀ q ∈ T, q.2.2 ≤ b.val a := fun q hq => hm _ (List.mem_map_of_mem hq)
      obtain ⟨q, hq⟩ := List.exists_mem_of_ne_nil T hT0
      have := hm' q hq; have := hTh q hq
      exact use_disj T _ (by omega) hm' hp
    · intro hu
      refine ⟨fun v hv => ?_, ?_⟩
      · obtain ⟨q, hq, rfl⟩ := List.mem_map.mp hv
        have := use_mem T hTh q.1 q hq ⟨le_refl _, by have := hTd q hq; omega⟩
        have := hu q.1
        omega
      · refine disj_use T _ hTd hTh ?_ hu
        have hp := hpair c1
        rw [List.map_map, List.pairwise_map] at hp
        have hp2 : (ints a H).Pairwise (fun u v => b.val a < u + v) := by
          unfold ints
          rw [List.pairwise_map]
          refine hp.imp (fun {x y} hxy => ?_)
          have := min_le_val D a ha x; have := min_le_val D a ha y
          simp only [Function.comp_apply] at hxy
          omega
        rw [← hz3, List.pairwise_map] at hp2
        exact hp2
  · refine ⟨_, rfl, fun a ha => ?_⟩
    rw [posts_one _ (fun a => Cumulative (ints a ss) (ints a ds) (H.map (fun x => D.min (tm x))) (b.val a))
      (fun a e => by
        have : ((H.map tm).map (fun t => Term.const (D.min t))).map (Term.val a e) = H.map (fun x => D.min (tm x)) := by
          simp [Function.comp_def, Term.val]
        simp only [Post.holds, map_tm, tm_val, this]) a]
    have : H.map (fun x => D.min (tm x)) = ints a H := by
      unfold ints
      refine List.map_congr_left (fun x hx => assigned_val D a ha x ?_)
      rw [List.all_eq_true] at c3
      exact c3 _ (List.mem_map_of_mem hx)
    simp only [this]
  · refine ⟨_, rfl, fun a ha => ?_⟩
    rw [posts_one _ (fun a => ∀ t : Int, (∃ q ∈ List.zip (ints a ss) (ints a ds), q.1 ≤ t ∧ t < q.1 + q.2) →
        usage (ints a ss) (ints a ds) (ints a H) t ≤ D.min (tm b)) (fun a e => by simp only [Post.holds, map_tm]) a]
    simp only []
    rw [hcum, assigned_val D a ha b c4]
    obtain ⟨T, hT, hT0, hTd, hTh, hz, hz3⟩ := key a ha
    rw [← hT, hz]
    have hu : ∀ t, usage (ints a ss) (ints a ds) (ints a H) t = use T t := fun t => by rw [hT]; rfl
    simp only [hu]
    constructor
    · intro h
      exact use_assigned T _ hT0 hTd hTh (fun t ⟨q, hq, hr⟩ => h t ⟨(q.1, q.2.1), List.mem_map_of_mem hq, hr⟩)
    · exact fun h t _ => h t
  · refine ⟨_, rfl, fun a ha => ?_⟩
    unfold timeSlices
    have hsp := span_le D (List.zip (ss.map tm) (ds.map tm))
    generalize span D (List.zip (ss.map tm) (ds.map tm)) = sp at hsp ⊢
    rw [posts_list _ (fun a => ∀ k : Nat, k < (sp.2 - sp.1).toNat → usage (ints a ss) (ints a ds) (ints a H) (sp.1 + k) ≤ b.val a)
      (fun a e => by
        simp only [List.mem_map, List.mem_range, forall_exists_index, and_imp, forall_apply_eq_imp_iff₂, Post.holds, Reif.holds, IRT.holds,
          tm_val]
        refine forall_congr' (fun k => imp_congr_right (fun _ => ?_))
        conv_lhs => lhs; rhs; rw [List.map_map]
        rw [dot_ones _ _ _ _ (by simp [h1]) (by simp [h2])]
        unfold usage
        rw [← map_tm a e ss, ← map_tm a e ds, ← map_tm a e H, zip3_map, List.map_map]
        have : ∀ q : Term × Term × Term, (Term.val a e ∘ fun q : Term × Term × Term =>
            Term.mul (.within q.1 (sp.1 + k) (.add q.1 q.2.1)) q.2.2) q =
            ((fun q : Int × Int × Int => if q.1 ≤ sp.1 + k ∧ sp.1 + k < q.1 + q.2.1 then q.2.2 else 0) ∘
              fun q : Term × Term × Term => (Term.val a e q.1, Term.val a e q.2.1, Term.val a e q.2.2)) q := by
          intro q
          change (if Term.val a e q.1 ≤ sp.1 + k ∧ sp.1 + k < Term.val a e q.1 + Term.val a e q.2.1 then (1 : Int) else 0) * Term.val a e q.2.2 =
            if Term.val a e q.1 ≤ sp.1 + k ∧ sp.1 + k < Term.val a e q.1 + Term.val a e q.2.1 then Term.val a e q.2.2 else 0
          by_cases hc : Term.val a e q.1 ≤ sp.1 + k ∧ sp.1 + k < Term.val a e q.1 + Term.val a e q.2.1
          · rw [if_pos hc, if_pos hc, Int.one_mul]
          · rw [if_neg hc, if_neg hc, Int.zero_mul]
        rw [List.map_congr_left (fun q _ => this q)]) a]
    simp only []
    rw [hcum]
    obtain ⟨T, hT, hT0, hTd, hTh, hz, hz3⟩ := key a ha
    rw [← hT]
    have hu : ∀ t, usage (ints a ss) (ints a ds) (ints a H) t = use T t := fun t => by rw [hT]; rfl
    simp only [hu]
    refine ⟨fun h => use_assigned T _ hT0 hTd hTh (fun t ⟨q, hq, hr⟩ => ?_), fun h k _ => h _⟩
    have hq2 : (q.1, q.2.1) ∈ List.zip (ints a ss) (ints a ds) := by rw [hz]; exact List.mem_map_of_mem hq
    have hin : ∃ x y, (tm x, tm y) ∈ List.zip (ss.map tm) (ds.map tm) ∧ x.val a = q.1 ∧ y.val a = q.2.1 := by
      unfold ints at hq2
      rw [List.zip_map] at hq2
      obtain ⟨p, hp, hpe⟩ := List.mem_map.mp hq2
      simp only [Prod.map, Prod.mk.injEq] at hpe
      refine ⟨p.1, p.2, ?_, hpe.1, hpe.2⟩
      rw [List.zip_map]
      exact List.mem_map.mpr ⟨p, hp, rfl⟩
    obtain ⟨x, y, hxy, e1, e2⟩ := hin
    obtain ⟨s1, s2⟩ := hsp _ hxy
    simp only [] at s1 s2
    have m1 := min_le_val D a ha x
    have m2 := val_le_max D a ha x
    have m3 := val_le_max D a ha y
    have := h (t - sp.1).toNat (by omega)
    rwa [show sp.1 + ((t - sp.1).toNat : Int) = t by omega] at this

/-- The times 0 to 9 for every variable. -/
def tenTimes : Doms := ⟨fun _ => Finset.Icc 0 9, fun _ => ⟨0, by simp⟩⟩

/-- Two tasks that fit together are kept apart: with the heights 4, 7 and 5 on a resource of 10 the second smallest height is taken to be 7. -/
theorem _root_.MZ.C92_cumulative_fails :
    ¬ PostsIn tenTimes (p_cumulative tenTimes [.var 0, .var 1, .var 2] [.lit 2, .lit 2, .lit 2] [.lit 4, .lit 7, .lit 5] (.lit 10))
      (fun a => Cumulative (ints a [.var 0, .var 1, .var 2]) (ints a [.lit 2, .lit 2, .lit 2]) (ints a [.lit 4, .lit 7, .lit 5]) 10) := by
  rintro ⟨p, hp, h⟩
  have hp2 : p_cumulative tenTimes [.var 0, .var 1, .var 2] [.lit 2, .lit 2, .lit 2] [.lit 4, .lit 7, .lit 5] (.lit 10) =
      .ok ⟨[], [.geMax (.const 10) [.const 4, .const 7, .const 5], .unary [.var 0, .var 1, .var 2] [.const 2, .const 2, .const 2]]⟩ := by
    rfl
  rw [hp2] at hp
  simp only [Res.ok.injEq] at hp
  subst hp
  have := (h ⟨fun x => if x = 1 then 2 else 0, fun _ => true⟩ (by
    intro x; simp only [tenTimes, Finset.mem_Icc]; split_ifs <;> omega)).mpr (by
      intro t
      simp only [usage, ints, IArg.val, List.map_cons, List.map_nil, List.zip_cons_cons, List.zip_nil_left, List.sum_cons, List.sum_nil]
      simp only [if_true, zero_ne_one, if_false, OfNat.ofNat_ne_one]
      split_ifs <;> omega)
  obtain ⟨e, _, h2⟩ := this
  have := h2 (.unary [.var 0, .var 1, .var 2] [.const 2, .const 2, .const 2]) (by simp)
  simp [Post.holds, Disjunctive, Term.val] at this

/-- The same for heights in increasing order, none of which can be too much together with another one. -/
theorem _root_.MZ.C92_cumulative_increasing_fails :
    ¬ PostsIn tenTimes (p_cumulative tenTimes [.var 0, .var 1, .var 2] [.lit 2, .lit 2, .lit 2] [.lit 0, .lit 1, .lit 2] (.lit 10))
      (fun a => Cumulative (ints a [.var 0, .var 1, .var 2]) (ints a [.lit 2, .lit 2, .lit 2]) (ints a [.lit 0, .lit 1, .lit 2]) 10) := by
  rintro ⟨p, hp, h⟩
  have hp2 : p_cumulative tenTimes [.var 0, .var 1, .var 2] [.lit 2, .lit 2, .lit 2] [.lit 0, .lit 1, .lit 2] (.lit 10) =
      .ok ⟨[], [.geMax (.const 10) [.const 0, .const 1, .const 2], .unary [.var 0, .var 1, .var 2] [.const 2, .const 2, .const 2]]⟩ := by
    rfl
  rw [hp2] at hp
  simp only [Res.ok.injEq] at hp
  subst hp
  have := (h ⟨fun _ => 0, fun _ => true⟩ (by
    intro x; simp only [tenTimes, Finset.mem_Icc]; omega)).mpr (by
      intro t
      simp only [usage, ints, IArg.val, List.map_cons, List.map_nil, List.zip_cons_cons, List.zip_nil_left, List.sum_cons, List.sum_nil]
      split_ifs <;> omega)
  obtain ⟨e, _, h2⟩ := this
  have := h2 (.unary [.var 0, .var 1, .var 2] [.const 2, .const 2, .const 2]) (by simp)
  simp [Post.holds, Disjunctive, Term.val] at this

/-- With one task the sum of the two smallest heights exceeds the largest `int`. -/
theorem _root_.MZ.C92_cumulative_overflow_fails : p_cumulative tenTimes [.var 0] [.lit 2] [.lit 1] (.lit 10) = .ub := by rfl

end Gecode
end MZ
