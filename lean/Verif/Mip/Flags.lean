import Verif.Mip.Decomp

/-! # The flags of the subintervals -/

namespace MZ.Mip

/-- `z` is 1 for `i0` and 0 for the other numbers below `n`. -/
def OneHot (n : Nat) (z : Nat → Int) (i0 : Nat) : Prop := i0 < n ∧ ∀ i < n, z i = if i = i0 then 1 else 0

theorem zero_sum (g : Intv → Int) (s : List Intv) : ∀ (k : Nat) (z : Nat → Int), (∀ i < s.length, z (k + i) = 0) →
    ((s.zipIdx k).map fun p => g p.1 * z p.2).sum = 0 := by
  induction s with
  | nil => intro k z _; rfl
  | cons e t ih =>
    intro k z h
    rw [List.zipIdx_cons, List.map_cons, List.sum_cons, ih (k + 1) z (fun i hi => by
      have := h (i + 1) (by simpa using hi); rwa [show k + (i + 1) = k + 1 + i by omega] at this)]
    have := h 0 (by simp)
    simp only [Nat.add_zero] at this
    simp [this]

theorem hot_sum (g : Intv → Int) (s : List Intv) : ∀ (k : Nat) (z : Nat → Int) (i0 : Nat) (h0 : i0 < s.length),
    (∀ i < s.length, z (k + i) = if i = i0 then 1 else 0) →
    ((s.zipIdx k).map fun p => g p.1 * z p.2).sum = g s[i0] := by
  induction s with
  | nil => intro k z i0 h0; simp at h0
  | cons e t ih =>
    intro k z i0 h0 h
    rw [List.zipIdx_cons, List.map_cons, List.sum_cons]
    have hz := h 0 (by simp)
    have hs : ∀ i < t.length, z (k + 1 + i) = if i + 1 = i0 then 1 else 0 := by
      intro i hi
      have := h (i + 1) (by simpa using hi)
      rwa [show k + (i + 1) = k + 1 + i by omega] at this
    rw [Nat.add_zero] at hz
    cases i0 with
    | zero =>
      rw [if_pos rfl] at hz
      rw [zero_sum g t (k + 1) z (fun i hi => by rw [hs i hi, if_neg (by omega)])]
      simp [hz]
    | succ j =>
      rw [if_neg (by omega)] at hz
      rw [ih (k + 1) z j (by simpa using h0) (fun i hi => by rw [hs i hi]; simp)]
      simp [hz]

theorem hot_exists (s : List Intv) : ∀ (k : Nat) (z : Nat → Int), (∀ i < s.length, z (k + i) = 0 ∨ z (k + i) = 1) →
    0 ≤ ((s.zipIdx k).map fun p => (1 : Int) * z p.2).sum ∧
    (((s.zipIdx k).map fun p => (1 : Int) * z p.2).sum = 0 → ∀ i < s.length, z (k + i) = 0) ∧
    (((s.zipIdx k).map fun p => (1 : Int) * z p.2).sum = 1 → ∃ i0 < s.length, ∀ i < s.length, z (k + i) = if i = i0 then 1 else 0) := by
  induction s with
  | nil => intro k z _; simp
  | cons e t ih =>
    intro k z h
    rw [List.zipIdx_cons, List.map_cons, List.sum_cons]
    have hz := h 0 (by simp)
    rw [Nat.add_zero] at hz
    obtain ⟨i1, i2, i3⟩ := ih (k + 1) z (fun i hi => by
      have := h (i + 1) (by simpa using hi); rwa [show k + (i + 1) = k + 1 + i by omega] at this)
    generalize ((t.zipIdx (k + 1)).map fun p => (1 : Int) * z p.2).sum = S at i1 i2 i3
    dsimp only
    refine ⟨by rcases hz with hz | hz <;> rw [hz] <;> omega, ?_, ?_⟩
    · intro hS i hi
      have h0 : z k = 0 ∧ S = 0 := by rcases hz with hz | hz <;> rw [hz] at hS ⊢ <;> omega
      cases i with
      | zero => rw [Nat.add_zero]; exact h0.1
      | succ i => have := i2 h0.2 i (by simpa using hi); rwa [show k + (i + 1) = k + 1 + i by omega]
    · intro hS
      rcases hz with hz | hz
      · obtain ⟨j, hj, hh⟩ := i3 (by rw [hz] at hS; omega)
        refine ⟨j + 1, by simpa using hj, fun i hi => ?_⟩
        cases i with
        | zero => rw [Nat.add_zero, hz, if_neg (by omega)]
        | succ i =>
          have := hh i (by simpa using hi)
          rw [show k + (i + 1) = k + 1 + i by omega, this]; simp
      · have h2 := i2 (by rw [hz] at hS; omega)
        refine ⟨0, by simp, fun i hi => ?_⟩
        cases i with
        | zero => rw [Nat.add_zero, hz, if_pos rfl]
        | succ i => rw [show k + (i + 1) = k + 1 + i by omega, h2 i (by simpa using hi), if_neg (by omega)]

/-! ## Linear constraints -/

theorem lin_sum (terms : List (ℚ × Arg)) (eq : Bool) (rhs : ℚ) (σ z : Nat → Int) :
    ((addLinConstr terms eq rhs).terms.map fun t => t.1 * t.2.val σ z).sum =
      (terms.map fun t => trunc t.1 * t.2.val σ z).sum := by
  unfold addLinConstr
  dsimp only
  rw [List.map_map]
  induction terms with
  | nil => rfl
  | cons t rest ih =>
    rw [List.filter_cons]
    by_cases h : 1 / 100000000 < |t.1|
    · rw [if_pos (decide_eq_true h), List.map_cons, List.map_cons, List.sum_cons, List.sum_cons, ih]; rfl
    · rw [if_neg (by simp only [decide_eq_true_eq]; exact h), List.map_cons, List.sum_cons, ih, trunc_small (not_lt.mp h)]; simp

theorem trunc_one : trunc 1 = 1 := by have := trunc_int 1; simpa using this
theorem trunc_neg_one : trunc (-1) = -1 := by have := trunc_int (-1); simpa using this
theorem trunc_zero : trunc 0 = 0 := by have := trunc_int 0; simpa using this

theorem flagTerms_sum (s : List Intv) (c : Intv → ℚ) (σ z : Nat → Int) :
    ((flagTerms s c).map fun t => trunc t.1 * t.2.val σ z).sum = (s.zipIdx.map fun p => trunc (c p.1) * z p.2).sum := by
  unfold flagTerms; rw [List.map_map]; rfl

/-- A list of subintervals, as it is when flags are made for it. -/
structure Fine (r : ℤ) (s : List Intv) : Prop where
  fin : ∀ e ∈ s, ∃ a b : ℚ, e.left = fin a ∧ e.right = fin b ∧ a ≤ b
  ends : Ends (LOk r) (ROk r) s
  sorted : s.Pairwise (fun a b => a.left ≤ b.left ∧ a.right ≤ b.right)

theorem Fine.trunc_has {r : ℤ} {s : List Intv} (h : Fine r s) {e : Intv} (he : e ∈ s) :
    (trunc (toQ e.left) ≤ r ∧ r ≤ trunc (toQ e.right)) ↔ e.has r := by
  obtain ⟨a, b, ha, hb, hab⟩ := h.fin e he
  have hE := h.ends e he
  unfold Intv.has
  rw [ha, hb] at hE ⊢
  rw [fin_le, fin_le]
  show (trunc a ≤ r ∧ r ≤ trunc b) ↔ _
  rw [hE.1.le_iff (trunc_between a), hE.2.le_iff (trunc_between b)]

theorem foldl_max_ge (g : Intv → ℚ) (s : List Intv) : ∀ m : ℚ, m ≤ s.foldl (fun m e => max m (g e)) m ∧
    ∀ e ∈ s, g e ≤ s.foldl (fun m e => max m (g e)) m := by
  induction s with
  | nil => intro m; exact ⟨le_rfl, by simp⟩
  | cons e t ih =>
    intro m
    have := ih (max m (g e))
    rw [List.foldl_cons]
    refine ⟨(le_max_left _ _).trans this.1, fun f hf => ?_⟩
    rcases List.mem_cons.mp hf with rfl | hf
    · exact (le_max_right _ _).trans this.1
    · exact this.2 f hf

theorem Fine.trunc_eq {r : ℤ} {s : List Intv} (h : Fine r s) {e : Intv} (he : e ∈ s) (hm : maxInterval s ≤ 1 / 1000000) :
    trunc (toQ e.left) = r ↔ e.has r := by
  obtain ⟨a, b, ha, hb, hab⟩ := h.fin e he
  have hE := h.ends e he
  have hlen := ((foldl_max_ge (fun e => toQ e.right - toQ e.left) s (-1)).2 e he).trans hm
  unfold Intv.has
  rw [ha, hb] at hE hlen ⊢
  rw [fin_le, fin_le]
  change b - a ≤ _ at hlen
  show trunc a = r ↔ _
  have htb := trunc_between a
  constructor
  · intro ht
    refine ⟨(hE.1.le_iff htb).mp ht.le, ?_⟩
    by_contra hc
    have hc := not_le.mp hc
    have h1 : ⌈b⌉ ≤ r := Int.ceil_le.mpr hc.le
    have h2 : ⌈a⌉ ≤ ⌈b⌉ := Int.ceil_le_ceil hab
    have h3 : ⌈b⌉ = r := by omega
    obtain ⟨-, ⟨k, rfl⟩ | h'⟩ := hE.2 b rfl
    · rw [Int.ceil_intCast] at h3; rw [h3] at hc; exact lt_irrefl _ hc
    · exact h' h3
  · rintro ⟨h1, h2⟩
    rcases h1.lt_or_eq with h3 | h3
    · have := (hE.1 a rfl).1.gap' r h3
      unfold eps at this
      linarith
    · rw [h3, trunc_int]

/-- The constraints of `createDomainFlags` say that exactly one flag is 1, that of an interval with the value `r`. -/
theorem createDomainFlags_spec {ref : Nat} {s : List Intv} {σ z : Nat → Int} (h : Fine (σ ref) s)
    (hz : ∀ i < s.length, z i = 0 ∨ z i = 1) :
    (∀ l ∈ createDomainFlags ref s, l.Holds σ z) ↔ ∃ i0, OneHot s.length z i0 ∧ ∃ e ∈ s[i0]?, e.has (σ ref) := by
  have hsum : ∀ i0 (hot : OneHot s.length z i0) (g : Intv → Int), (s.zipIdx.map fun p => g p.1 * z p.2).sum = g (s[i0]'hot.1) := by
    intro i0 hot g
    exact hot_sum g s 0 z i0 hot.1 (fun i hi => by rw [Nat.zero_add]; exact hot.2 i hi)
  have hex : (addLinConstr (flagTerms s fun _ => 1) true 1).Holds σ z ↔ ∃ i0, OneHot s.length z i0 := by
    unfold Lin.Holds
    rw [if_pos (show (addLinConstr (flagTerms s fun _ => 1) true 1).eq = true from rfl), lin_sum, flagTerms_sum]
    show _ = trunc 1 ↔ _
    rw [trunc_one]
    constructor
    · intro hs
      obtain ⟨i0, h0, hh⟩ := (hot_exists s 0 z (fun i hi => by rw [Nat.zero_add]; exact hz i hi)).2.2 hs
      exact ⟨i0, h0, fun i hi => by have := hh i hi; rwa [Nat.zero_add] at this⟩
    · rintro ⟨i0, hot⟩
      exact hsum i0 hot (fun _ => 1)
  have hlow : ∀ eq, ((addLinConstr (flagTerms s (fun e => toQ e.left) ++ [(-1, .var ref)]) eq 0).terms.map
      fun t => t.1 * t.2.val σ z).sum = (s.zipIdx.map fun p => trunc (toQ p.1.left) * z p.2).sum - σ ref := by
    intro eq
    rw [lin_sum, List.map_append, List.sum_append, flagTerms_sum]
    simp only [List.map_cons, List.map_nil, List.sum_cons, List.sum_nil, trunc_neg_one, Arg.val]
    omega
  have hup : ((addLinConstr (flagTerms s (fun e => - toQ e.right) ++ [(1, .var ref)]) false 0).terms.map
      fun t => t.1 * t.2.val σ z).sum = (s.zipIdx.map fun p => trunc (- toQ p.1.right) * z p.2).sum + σ ref := by
    rw [lin_sum, List.map_append, List.sum_append, flagTerms_sum]
    simp only [List.map_cons, List.map_nil, List.sum_cons, List.sum_nil, trunc_one, Arg.val]
    omega
  unfold createDomainFlags
  rw [List.forall_mem_cons, hex]
  have body : ∀ i0, OneHot s.length z i0 →
      ((∀ l ∈ (if 1 / 1000000 < maxInterval s then
        [addLinConstr (flagTerms s (fun e => toQ e.left) ++ [(-1, .var ref)]) false 0,
         addLinConstr (flagTerms s (fun e => - toQ e.right) ++ [(1, .var ref)]) false 0]
        else [addLinConstr (flagTerms s (fun e => toQ e.left) ++ [(-1, .var ref)]) true 0]), l.Holds σ z) ↔
        ∃ e ∈ s[i0]?, e.has (σ ref)) := by
    intro i0 hot
    have he : s[i0]'hot.1 ∈ s := List.getElem_mem hot.1
    rw [List.getElem?_eq_getElem hot.1]
    simp only [Option.mem_def, Option.some.injEq, exists_eq_left']
    by_cases hm : 1 / 1000000 < maxInterval s
    · rw [if_pos hm, ← h.trunc_has he]
      simp only [List.forall_mem_cons, List.not_mem_nil, false_implies, implies_true, and_true]
      refine and_congr ?_ ?_
      · unfold Lin.Holds
        rw [if_neg (by simp [addLinConstr]), hlow, hsum i0 hot (fun e => trunc (toQ e.left))]
        show _ ≤ trunc 0 ↔ _
        rw [trunc_zero]; omega
      · unfold Lin.Holds
        rw [if_neg (by simp [addLinConstr]), hup, hsum i0 hot (fun e => trunc (- toQ e.right)), trunc_neg]
        show _ ≤ trunc 0 ↔ _
        rw [trunc_zero]; omega
    · rw [if_neg hm, ← h.trunc_eq he (not_lt.mp hm)]
      simp only [List.mem_singleton, forall_eq]
      unfold Lin.Holds
      rw [if_pos (by simp [addLinConstr]), hlow, hsum i0 hot (fun e => trunc (toQ e.left))]
      show _ = trunc 0 ↔ _
      rw [trunc_zero]; omega
  constructor
  · rintro ⟨⟨i0, hot⟩, hl⟩
    exact ⟨i0, hot, (body i0 hot).mp hl⟩
  · rintro ⟨i0, hot, hh⟩
    exact ⟨⟨i0, hot⟩, (body i0 hot).mpr hh⟩

/-! ## The flags for one interval -/

theorem takeWhile_lt_iff (p : E → Prop) [DecidablePred p] (hp : ∀ x y, x ≤ y → p y → p x) {s : List Intv}
    (h : s.Pairwise (fun a b => a.left ≤ b.left)) {i : Nat} (hi : i < s.length) :
    i < (s.takeWhile fun d => decide (p d.left)).length ↔ p s[i].left := by
  obtain ⟨a, b, rfl, ha, hb⟩ := split_at p hp s h
  rw [takeWhile_append _ _ _ (fun x hx => decide_eq_true (ha x hx)) (fun x hx => decide_eq_false (hb x hx))]
  constructor
  · intro h; rw [List.getElem_append_left h]; exact ha _ (List.getElem_mem h)
  · intro h
    by_contra hc
    rw [List.getElem_append_right (not_lt.mp hc)] at h
    exact hb _ (List.getElem_mem _) h

theorem takeWhile_len_le (p : Intv → Bool) (s : List Intv) : (s.takeWhile p).length ≤ s.length :=
  (List.takeWhile_prefix p).length_le

theorem sum_range'_hot (z : Nat → Int) (i0 n : Nat) (hot : OneHot n z i0) : ∀ (len a : Nat), a + len ≤ n →
    ((List.range' a len).map z).sum = if a ≤ i0 ∧ i0 < a + len then 1 else 0 := by
  intro len
  induction len with
  | zero => intro a _; rw [if_neg (by omega)]; rfl
  | succ len ih =>
    intro a ha
    rw [List.range'_succ, List.map_cons, List.sum_cons, ih (a + 1) (by omega), hot.2 a (by omega)]
    by_cases h : a = i0
    · rw [if_pos h, if_neg (by omega), if_pos (by omega)]; rfl
    · rw [if_neg h]
      by_cases h2 : a + 1 ≤ i0 ∧ i0 < a + 1 + len
      · rw [if_pos h2, if_pos (by omega)]; rfl
      · rw [if_neg h2, if_neg (by omega)]; rfl

open Classical in
/-- The collected flags have the sum 1 if the interval contains the value `r`, and otherwise 0. -/
theorem intvFlags_spec {r : ℤ} {s : List Intv} (hf : Fine r s) {σ z : Nat → Int} {i0 : Nat} (h0 : i0 < s.length)
    (hh : (s[i0]'h0).has r) {flags : Bool} (hot : flags = true → OneHot s.length z i0) {e : Intv} {args : List Arg}
    (h : intvFlags flags s e = some args) : (args.map (Arg.val σ z)).sum = if e.has r then 1 else 0 := by
  have hleft : s.Pairwise (fun a b => a.left ≤ b.left) := hf.sorted.imp (fun h => h.1)
  have mono : ∀ i j (hi : i < s.length) (hj : j < s.length), i ≤ j → s[i].left ≤ s[j].left ∧ s[i].right ≤ s[j].right := by
    intro i j hi hj hij
    rcases hij.lt_or_eq with h | rfl
    · exact List.pairwise_iff_getElem.mp hf.sorted i j hi hj h
    · exact ⟨le_rfl, le_rfl⟩
  unfold intvFlags at h
  dsimp only at h
  have c1 := takeWhile_lt_iff (fun x => x < e.left) (fun x y hxy hy => hxy.trans_lt hy) hleft h0
  have c2 := takeWhile_lt_iff (fun x => x ≤ e.right) (fun x y hxy hy => hxy.trans hy) hleft h0
  have l1 := takeWhile_len_le (fun d => decide (d.left < e.left)) s
  have l2 := takeWhile_len_le (fun d => decide (d.left ≤ e.right)) s
  generalize (s.takeWhile fun d => decide (d.left < e.left)).length = it1 at *
  generalize (s.takeWhile fun d => decide (d.left ≤ e.right)).length = it2 at *
  by_cases hchk : (∀ d ∈ (s.take it1).getLast?, d.right < e.left) ∧ (∀ d ∈ (s.take it2).getLast?, d.right ≤ e.right)
  · rw [if_pos hchk] at h
    have last : ∀ it, 0 < it → (hit : it ≤ s.length) → (s.take it).getLast? = some (s[it - 1]'(by omega)) := by
      intro it hp hit
      rw [List.getLast?_take, if_neg (by omega), List.getElem?_eq_getElem (by omega)]; rfl
    have key : (it1 ≤ i0 ∧ i0 < it2) ↔ e.has r := by
      unfold Intv.has at hh ⊢
      constructor
      · rintro ⟨h1, h2⟩
        refine ⟨(not_lt.mp (fun h => absurd (c1.mpr h) (not_lt.mpr h1))).trans hh.1, ?_⟩
        have := hchk.2 _ (last it2 (by omega) l2)
        exact hh.2.trans ((mono i0 (it2 - 1) h0 (by omega) (by omega)).2.trans this)
      · rintro ⟨h1, h2⟩
        constructor
        · by_contra hc
          have := hchk.1 _ (last it1 (by omega) l1)
          have := (mono i0 (it1 - 1) h0 (by omega) (by omega)).2.trans_lt this
          exact absurd (h1.trans hh.2) (not_le.mpr this)
        · by_contra hc
          have := mt c2.mpr hc
          exact this (hh.1.trans h2)
    have hcond : (if e.has r then (1 : Int) else 0) = if it1 ≤ i0 ∧ i0 < it2 then 1 else 0 := by
      by_cases hb : e.has r
      · rw [if_pos hb, if_pos (key.mpr hb)]
      · rw [if_neg hb, if_neg (fun h => hb (key.mp h))]
    rw [hcond]
    cases flags with
    | true =>
      rw [if_pos rfl] at h
      rw [← Option.some.inj h, List.map_map]
      have : (Arg.val σ z ∘ Arg.flag) = z := rfl
      rw [this]
      by_cases hle : it1 ≤ it2
      · rw [sum_range'_hot z i0 s.length (hot rfl) (it2 - it1) it1 (by omega), show it1 + (it2 - it1) = it2 by omega]
      · rw [show it2 - it1 = 0 by omega, if_neg (by omega)]; rfl
    | false =>
      rw [if_neg (by simp)] at h
      by_cases hx : it1 < it2 ∧ s.length ≠ 1
      · rw [if_pos hx] at h; cases h
      · rw [if_neg hx] at h
        rw [← Option.some.inj h]
        by_cases hlt : it1 < it2
        · have h1 : s.length = 1 := by by_contra hc; exact hx ⟨hlt, hc⟩
          have e1 : it1 = 0 := by omega
          have e2 : it2 = 1 := by omega
          have e3 : i0 = 0 := by omega
          subst e1 e2 e3
          rfl
        · rw [show it2 - it1 = 0 by omega, if_neg (by omega)]; rfl
  · rw [if_neg hchk] at h; cases h

end MZ.Mip
