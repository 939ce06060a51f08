import Verif.Mip.Impl
import Mathlib.Data.List.Nodup

/-! # The whole of `doProcess` -/

namespace MZ.Mip

theorem Strict.fine {r : ℤ} {s : List Intv} (hs : Strict s) (he : Ends (LOk r) (ROk r) s) (hb : checkFiniteBounds s = true) :
    Fine r s := by
  have hsorted : s.Pairwise (fun a b => a.left ≤ b.left ∧ a.right ≤ b.right) := by
    refine hs.2.imp_of_mem ?_
    intro a b ha hb' h
    exact ⟨(hs.1 a ha).1.trans h.le, h.le.trans (hs.1 b hb').1⟩
  refine ⟨fun e hmem => ?_, he, hsorted⟩
  unfold checkFiniteBounds getBounds at hb
  cases hh : s.head? with
  | none => rw [List.head?_eq_none_iff] at hh; subst hh; simp at hmem
  | some a =>
    cases hl : s.getLast? with
    | none => rw [List.getLast?_eq_none_iff] at hl; subst hl; simp at hmem
    | some b =>
      rw [hh, hl] at hb
      simp only [Bool.and_eq_true, decide_eq_true_eq] at hb
      obtain ⟨⟨-, h1⟩, h2⟩ := hb
      have ha : a.left ≤ e.left := by
        cases s with
        | nil => simp at hmem
        | cons x t =>
          rw [List.head?_cons, Option.some.injEq] at hh; subst hh
          rcases List.mem_cons.mp hmem with rfl | hm
          · exact le_rfl
          · exact ((List.pairwise_cons.mp hsorted).1 e hm).1
      have hbr : e.right ≤ b.right := by
        rcases List.eq_nil_or_concat' s with h | ⟨t, x, rfl⟩
        · subst h; simp at hmem
        · rw [List.getLast?_concat, Option.some.injEq] at hl; subst hl
          rcases List.mem_append.mp hmem with hm | hm
          · exact ((List.pairwise_append.mp hsorted).2.2 e hm x (by simp)).2
          · rw [List.mem_singleton] at hm; rw [hm]
      have hE := hs.1 e hmem
      rcases E_cases e.left with h | h | ⟨p, hp⟩
      · exact absurd (h ▸ ha) (not_le.mpr h1)
      · exact absurd h hE.2.1
      · rcases E_cases e.right with h | h | ⟨q, hq⟩
        · exact absurd h hE.2.2
        · exact absurd (h ▸ hbr) (not_le.mpr h2)
        · refine ⟨p, q, hp, hq, ?_⟩
          have := hE.1; rwa [hp, hq, fin_le] at this

theorem bounds_has {r : ℤ} {s : List Intv} (hf : Fine r s) (hm : Mem s r) :
    toQ (getBounds s).left ≤ r ∧ (r : ℚ) ≤ toQ (getBounds s).right := by
  obtain ⟨e, hmem, hx⟩ := hm
  unfold getBounds
  cases hh : s.head? with
  | none => rw [List.head?_eq_none_iff] at hh; subst hh; simp at hmem
  | some a =>
    cases hl : s.getLast? with
    | none => rw [List.getLast?_eq_none_iff] at hl; subst hl; simp at hmem
    | some b =>
      dsimp only
      have ha : a.left ≤ e.left := by
        cases s with
        | nil => simp at hmem
        | cons x t =>
          rw [List.head?_cons, Option.some.injEq] at hh; subst hh
          rcases List.mem_cons.mp hmem with rfl | hm
          · exact le_rfl
          · exact ((List.pairwise_cons.mp hf.sorted).1 e hm).1
      have hbr : e.right ≤ b.right := by
        rcases List.eq_nil_or_concat' s with h | ⟨t, x, rfl⟩
        · subst h; simp at hmem
        · rw [List.getLast?_concat, Option.some.injEq] at hl; subst hl
          rcases List.mem_append.mp hmem with hm | hm
          · exact ((List.pairwise_append.mp hf.sorted).2.2 e hm x (by simp)).2
          · rw [List.mem_singleton] at hm; rw [hm]
      obtain ⟨p, q, hp, hq, -⟩ := hf.fin a (List.mem_of_mem_head? hh)
      obtain ⟨p', q', hp', hq', -⟩ := hf.fin b (List.mem_of_getLast? hl)
      have h1 := ha.trans hx.1
      have h2 := hx.2.trans hbr
      rw [hp, fin_le] at h1
      rw [hq', fin_le] at h2
      rw [hp, hq']
      exact ⟨h1, h2⟩

/-! ## The ranges -/

theorem ranges_other (b : Intv) (views : List View) : ∀ (dom : Doms) (x : Nat), x ∉ views.map View.var →
    views.foldl (rangeDomain b) dom x = dom x := by
  induction views with
  | nil => intro dom x _; rfl
  | cons w ws ih =>
    intro dom x hx
    rw [List.map_cons, List.mem_cons, not_or] at hx
    rw [List.foldl_cons, ih _ x hx.2]
    unfold rangeDomain setVarDomain
    exact if_neg hx.1

theorem ranges_var (b : Intv) (views : List View) : ∀ (dom : Doms), (views.map View.var).Nodup → ∀ w ∈ views,
    views.foldl (rangeDomain b) dom w.var = some [⟨some (rndUp (min ((toQ b.left - w.B) / w.A) ((toQ b.right - w.B) / w.A))),
      some (rndDown (max ((toQ b.left - w.B) / w.A) ((toQ b.right - w.B) / w.A)))⟩] := by
  induction views with
  | nil => intro dom _ w hw; simp at hw
  | cons w ws ih =>
    intro dom hn u hu
    rw [List.map_cons, List.nodup_cons] at hn
    rw [List.foldl_cons]
    rcases List.mem_cons.mp hu with rfl | hu
    · rw [ranges_other b ws _ _ hn.1]
      unfold rangeDomain setVarDomain
      exact if_pos rfl
    · exact ih _ hn.2 u hu

/-- The value of a variable is in its new range if that of the reference variable is within the bounds. -/
theorem range_has {A B L R : ℚ} {r v : ℤ} (hA : A ≠ 0) (heq : (r : ℚ) = A * v + B) (h1 : L ≤ r) (h2 : (r : ℚ) ≤ R) :
    rndUp (min ((L - B) / A) ((R - B) / A)) ≤ v ∧ v ≤ rndDown (max ((L - B) / A) ((R - B) / A)) := by
  have hv : (v : ℚ) = (r - B) / A := by rw [heq]; field_simp; ring
  have hmin : min ((L - B) / A) ((R - B) / A) ≤ v := by
    rw [hv]
    rcases lt_or_gt_of_ne hA with h | h
    · exact (min_le_right _ _).trans ((div_le_div_right_of_neg h).mpr (by linarith))
    · exact (min_le_left _ _).trans ((div_le_div_iff_of_pos_right h).mpr (by linarith))
  have hmax : (v : ℚ) ≤ max ((L - B) / A) ((R - B) / A) := by
    rw [hv]
    rcases lt_or_gt_of_ne hA with h | h
    · exact ((div_le_div_right_of_neg h).mpr (by linarith)).trans (le_max_left _ _)
    · exact ((div_le_div_iff_of_pos_right h).mpr (by linarith)).trans (le_max_right _ _)
  have := eps_pos
  exact ⟨Int.ceil_le.mpr (by linarith), Int.le_floor.mpr (by linarith)⟩

/-! ## Splitting into values -/

theorem stdRound_mono {x y : ℚ} (h : x ≤ y) : stdRound x ≤ stdRound y := by
  unfold stdRound
  by_cases hx : 0 ≤ x
  · rw [if_pos hx, if_pos (hx.trans h)]; exact Int.floor_le_floor (by linarith)
  · by_cases hy : 0 ≤ y
    · rw [if_neg hx, if_pos hy]
      have a : ⌈x - 1 / 2⌉ ≤ 0 := Int.ceil_le.mpr (by push_cast; linarith)
      have b : 0 ≤ ⌊y + 1 / 2⌋ := Int.floor_nonneg.mpr (by linarith)
      omega
    · rw [if_neg hx, if_neg hy]; exact Int.ceil_le_ceil (by linarith)

/-- The interval with one integer. -/
def pt (k : ℤ) : Intv := ⟨fin k, fin k⟩

theorem insertI_last {t : List Intv} {k : ℤ} (h : ∀ e ∈ t, e.left ≤ fin k) : insertI t (pt k) = t ++ [pt k] := by
  unfold insertI
  rw [if_neg (show ¬ (pt k).right < (pt k).left from lt_irrefl _)]
  have e1 := takeWhile_append (fun e : Intv => decide (e.left ≤ (pt k).left)) t [] (fun x hx => decide_eq_true (h x hx)) (by simp)
  have e2 := dropWhile_append' (fun e : Intv => decide (e.left ≤ (pt k).left)) t [] (fun x hx => decide_eq_true (h x hx)) (by simp)
  rw [List.append_nil] at e1 e2
  rw [e1, e2]

theorem bits_inner (n : Nat) : ∀ (a b : ℤ) (t : List Intv), (b + 1 - a).toNat = n → (∀ e ∈ t, e.left ≤ fin a) →
    (upTo a b).foldl (fun t (v : ℤ) => insertI t ⟨fin v, fin v⟩) t = t ++ (upTo a b).map pt := by
  induction n with
  | zero => intro a b t hn _; rw [upTo_nil (by omega)]; simp
  | succ n ih =>
    intro a b t hn h
    rw [upTo_succ (by omega), List.foldl_cons, List.map_cons]
    rw [show insertI t ⟨fin a, fin a⟩ = t ++ [pt a] from insertI_last h, ih (a + 1) b _ (by omega)]
    · simp
    · intro e he
      rcases List.mem_append.mp he with he | he
      · refine (h e he).trans (fin_le.mpr ?_); push_cast; linarith
      · rw [List.mem_singleton] at he; subst he
        exact fin_le.mpr (by push_cast; linarith)

theorem mem_upTo {a b v : ℤ} : v ∈ upTo a b ↔ a ≤ v ∧ v ≤ b := by
  unfold upTo
  simp only [List.mem_map, List.mem_range]
  constructor
  · rintro ⟨k, hk, rfl⟩; omega
  · rintro ⟨h1, h2⟩; exact ⟨(v - a).toNat, by omega, by omega⟩

theorem sorted_upTo (n : Nat) : ∀ a b : ℤ, (b + 1 - a).toNat = n → (upTo a b).Pairwise (· ≤ ·) := by
  induction n with
  | zero => intro a b hn; rw [upTo_nil (by omega)]; exact List.Pairwise.nil
  | succ n ih =>
    intro a b hn
    rw [upTo_succ (by omega), List.pairwise_cons]
    refine ⟨fun v hv => ?_, ih _ _ (by omega)⟩
    rw [mem_upTo] at hv; omega

/-- The bits of one interval. -/
def bits (e : Intv) : List ℤ := upTo (stdRound (toQ e.left)) (stdRound (toQ e.right))

theorem bits_outer {r : ℤ} (s : List Intv) : Fine r s → s.Pairwise (fun a b => a.right < b.left) → ∀ ks : List ℤ, ks.Pairwise (· ≤ ·) →
    (∀ k ∈ ks, ∀ e ∈ s, k ≤ stdRound (toQ e.left)) →
    s.foldl (fun t e => (upTo (stdRound (toQ e.left)) (stdRound (toQ e.right))).foldl (fun t (v : ℤ) => insertI t ⟨fin v, fin v⟩) t)
      (ks.map pt) = (ks ++ s.flatMap bits).map pt ∧ (ks ++ s.flatMap bits).Pairwise (· ≤ ·) := by
  induction s with
  | nil => intro _ _ ks hk _; simpa using hk
  | cons e t ih =>
    intro hf hst ks hk hle
    have hst := List.pairwise_cons.mp hst
    have hp := List.pairwise_cons.mp hf.sorted
    have hft : Fine r t := ⟨fun x hx => hf.fin x (by simp [hx]), fun x hx => hf.ends x (by simp [hx]), hp.2⟩
    rw [List.foldl_cons, bits_inner _ _ _ _ rfl, ← List.map_append, List.flatMap_cons, ← List.append_assoc]
    · refine ih hft hst.2 _ ?_ ?_
      · rw [List.pairwise_append]
        refine ⟨hk, sorted_upTo _ _ _ rfl, fun k hk v hv => ?_⟩
        have := hle k hk e (by simp)
        rw [mem_upTo] at hv; omega
      · intro k hk' f hfm
        rcases List.mem_append.mp hk' with h | h
        · exact hle k h f (by simp [hfm])
        · rw [mem_upTo] at h
          refine h.2.trans (stdRound_mono ?_)
          obtain ⟨a, b, ha, hb, hab⟩ := hf.fin e (by simp)
          obtain ⟨a', b', ha', hb', hab'⟩ := hf.fin f (by simp [hfm])
          have := hst.1 f hfm
          rw [hb, ha', fin_lt] at this
          rw [hb, ha']; exact this.le
    · intro x hx
      obtain ⟨k, hk', rfl⟩ := List.mem_map.mp hx
      exact fin_le.mpr (by exact_mod_cast hle k hk' e (by simp))

theorem Fine.round_has {r : ℤ} {s : List Intv} (h : Fine r s) {e : Intv} (he : e ∈ s) :
    (stdRound (toQ e.left) ≤ r ∧ r ≤ stdRound (toQ e.right)) ↔ e.has r := by
  obtain ⟨a, b, ha, hb, hab⟩ := h.fin e he
  have hE := h.ends e he
  unfold Intv.has
  rw [ha, hb] at hE ⊢
  rw [fin_le, fin_le]
  show (stdRound a ≤ r ∧ r ≤ stdRound b) ↔ _
  rw [hE.1.le_iff (stdRound_between a), hE.2.le_iff (stdRound_between b)]

theorem split2Bits_eq {r : ℤ} {s : List Intv} (hf : Fine r s) (hs : Strict s) :
    split2Bits s = (s.flatMap bits).map pt ∧ (s.flatMap bits).Pairwise (· ≤ ·) := by
  have := bits_outer s hf hs.2 [] List.Pairwise.nil (by simp)
  simpa [split2Bits] using this

theorem split2Bits_fine {r : ℤ} {s : List Intv} (hf : Fine r s) (hs : Strict s) :
    Fine r (split2Bits s) ∧ (Mem (split2Bits s) r ↔ Mem s r) := by
  obtain ⟨h1, h2⟩ := split2Bits_eq hf hs
  rw [h1]
  refine ⟨⟨?_, ?_, ?_⟩, ?_⟩
  · intro e he
    obtain ⟨k, -, rfl⟩ := List.mem_map.mp he
    exact ⟨k, k, rfl, rfl, le_rfl⟩
  · intro e he
    obtain ⟨k, -, rfl⟩ := List.mem_map.mp he
    exact ⟨LOk_int _ _, ROk_int _ _⟩
  · refine List.pairwise_map.mpr (h2.imp ?_)
    intro a b hab
    have : (a : ℚ) ≤ b := by exact_mod_cast hab
    exact ⟨fin_le.mpr this, fin_le.mpr this⟩
  · constructor
    · rintro ⟨e, he, hx⟩
      obtain ⟨k, hk, rfl⟩ := List.mem_map.mp he
      obtain ⟨e, he, hk⟩ := List.mem_flatMap.mp hk
      have hkr : k = r := by
        have a := fin_le.mp hx.1
        have b := fin_le.mp hx.2
        have a : k ≤ r := by exact_mod_cast a
        have b : r ≤ k := by exact_mod_cast b
        omega
      subst hkr
      refine ⟨e, he, ?_⟩
      exact (hf.round_has he).mp (mem_upTo.mp hk)
    · rintro ⟨e, he, hx⟩
      refine ⟨pt r, List.mem_map_of_mem (List.mem_flatMap.mpr ⟨e, he, ?_⟩), le_rfl, le_rfl⟩
      exact mem_upTo.mpr ((hf.round_has he).mpr hx)

/-! ## The equality encoding -/

theorem zero_step {ref : Nat} {iMin : Int} {pp : List Arg} {σ : Nat → Int} (he : EncHolds ref (some (iMin, pp)) σ)
    (ha : EncArgs (some (iMin, pp))) {F : Nat → Prop} {dom : Doms} (hF : ∀ g, F g → FlagDom dom g)
    (hv : ∀ x, .var x ∈ pp → F x) {v : Int} (h1 : iMin ≤ v) {dom' : Doms}
    (hd : dom' = match pp[(v - iMin).toNat]? with | some (.var x) => setVarDomain dom x 0 0 | _ => dom) :
    (∀ g, F g → FlagDom dom' g) ∧ (dom'.Sat σ ↔ dom.Sat σ ∧ σ ref ≠ v) := by
  have hr := (he _ rfl).2
  dsimp only at hr
  by_cases h2 : v < iMin + pp.length
  · obtain ⟨a, hget, hval⟩ := enc_val (z := fun _ => 0) he ha h1 h2
    rw [hget] at hd
    have hmem : a ∈ pp := List.mem_of_getElem? hget
    rcases ha _ rfl a hmem with ⟨x, rfl⟩ | rfl
    · dsimp only at hd
      subst hd
      have hx := hF x (hv x hmem)
      refine ⟨fun g hg => flagDom_setZero (hF g hg), ?_⟩
      rw [sat_setZero hx]
      refine and_congr_right fun _ => ?_
      change σ x = _ at hval
      rw [hval]
      split
      · rename_i h; simp [h]
      · rename_i h; simp [h]
    · dsimp only at hd
      subst hd
      refine ⟨hF, ⟨fun h => ⟨h, fun hc => ?_⟩, fun h => h.1⟩⟩
      rw [if_pos hc] at hval
      exact absurd (show (0 : Int) = 1 from hval) (by decide)
  · rw [List.getElem?_eq_none (by omega)] at hd
    dsimp only at hd
    subst hd
    exact ⟨hF, ⟨fun h => ⟨h, by omega⟩, fun h => h.1⟩⟩

theorem zeroFlags_spec {ref : Nat} {iMin : Int} {pp : List Arg} {σ : Nat → Int} (he : EncHolds ref (some (iMin, pp)) σ)
    (ha : EncArgs (some (iMin, pp))) {F : Nat → Prop} (hv : ∀ x, .var x ∈ pp → F x) {dom : Doms}
    (hF : ∀ g, F g → FlagDom dom g) {a b : Int} (h1 : iMin ≤ a) :
    (∀ g, F g → FlagDom (zeroFlags iMin pp dom a b) g) ∧
      ((zeroFlags iMin pp dom a b).Sat σ ↔ dom.Sat σ ∧ ¬ (a ≤ σ ref ∧ σ ref < b)) := by
  have key : ∀ n : Nat,
      (∀ g, F g → FlagDom ((List.range n).foldl
        (fun d (k : Nat) => match pp[(a + k - iMin).toNat]? with | some (.var x) => setVarDomain d x 0 0 | _ => d) dom) g) ∧
      (((List.range n).foldl
        (fun d (k : Nat) => match pp[(a + k - iMin).toNat]? with | some (.var x) => setVarDomain d x 0 0 | _ => d) dom).Sat σ ↔
        dom.Sat σ ∧ ¬ (a ≤ σ ref ∧ σ ref < a + n)) := by
    intro n
    induction n with
    | zero =>
      refine ⟨by simpa using hF, ?_⟩
      have : ¬ (a ≤ σ ref ∧ σ ref < a + ((0 : Nat) : Int)) := by omega
      simp only [this, not_false_iff, and_true]
      rfl
    | succ n ih =>
      rw [List.range_succ, List.foldl_append, List.foldl_cons, List.foldl_nil]
      have := zero_step he ha ih.1 hv (v := a + n) (by omega) rfl
      refine ⟨this.1, this.2.trans ?_⟩
      rw [ih.2, and_assoc]
      refine and_congr_right fun _ => ?_
      push_cast
      omega
  have := key (b - a).toNat
  refine ⟨this.1, this.2.trans (and_congr_right fun _ => ?_)⟩
  omega

theorem trunc_add_one (x : ℚ) : ⌊x⌋ ≤ trunc (x + 1) - 1 ∧ trunc (x + 1) - 1 ≤ ⌈x⌉ := by
  have := trunc_between (x + 1)
  rw [Int.floor_add_one, Int.ceil_add_one] at this
  omega

theorem syncLoop_spec {ref : Nat} {iMin : Int} {pp : List Arg} {σ : Nat → Int} (he : EncHolds ref (some (iMin, pp)) σ)
    (ha : EncArgs (some (iMin, pp))) {F : Nat → Prop} (hv : ∀ x, .var x ∈ pp → F x) (t : List Intv) : Fine (σ ref) t →
    ∀ (v : Int) (dom : Doms), (∀ g, F g → FlagDom dom g) → iMin ≤ v → (∀ e ∈ t, v ≤ trunc (toQ e.right + 1)) →
    (∀ g, F g → FlagDom (syncLoop iMin pp t v dom) g) ∧
      ((syncLoop iMin pp t v dom).Sat σ ↔ dom.Sat σ ∧ (σ ref < v ∨ Mem t (σ ref))) := by
  have hr := (he _ rfl).2
  dsimp only at hr
  induction t with
  | nil =>
    intro _ v dom hF h1 _
    have := zeroFlags_spec he ha hv hF (b := iMin + pp.length) h1
    refine ⟨this.1, this.2.trans (and_congr_right fun _ => ?_)⟩
    simp only [Mem, List.not_mem_nil, false_and, exists_false, or_false]
    omega
  | cons e t ih =>
    intro hf v dom hF h1 h2
    have hp := List.pairwise_cons.mp hf.sorted
    have hft : Fine (σ ref) t := ⟨fun x hx => hf.fin x (by simp [hx]), fun x hx => hf.ends x (by simp [hx]), hp.2⟩
    obtain ⟨a, b, hla, hrb, hab⟩ := hf.fin e (by simp)
    have hE := hf.ends e (by simp)
    have hmem : ∀ f ∈ e :: t, f.has (σ ref) → a ≤ (σ ref : ℚ) := by
      intro f hfm hx
      have : e.left ≤ f.left := by
        rcases List.mem_cons.mp hfm with rfl | hm
        · exact le_rfl
        · exact (hp.1 f hm).1
      have := this.trans hx.1
      rwa [hla, fin_le] at this
    unfold syncLoop
    have tl : toQ e.left = a := by rw [hla]; rfl
    have tr : toQ e.right = b := by rw [hrb]; rfl
    rw [tl, tr]
    by_cases hb : max v (iMin + pp.length) < ⌈a⌉
    · rw [if_pos hb]
      have := zeroFlags_spec he ha hv hF (b := iMin + pp.length) h1
      refine ⟨this.1, this.2.trans (and_congr_right fun _ => ?_)⟩
      have hno : ¬ Mem (e :: t) (σ ref) := by
        rintro ⟨f, hfm, hx⟩
        have := Int.ceil_le.mpr (hmem f hfm hx)
        omega
      simp only [hno, or_false]
      omega
    · rw [if_neg hb]
      have hz := zeroFlags_spec he ha hv hF (b := ⌈a⌉) h1
      have hve := h2 e (by simp)
      rw [tr] at hve
      have hi := ih hft (trunc (b + 1)) _ hz.1 (by omega) (fun f hfm => ?_)
      · refine ⟨hi.1, hi.2.trans ?_⟩
        rw [hz.2, and_assoc]
        refine and_congr_right fun _ => ?_
        have hlast : σ ref ≤ trunc (b + 1) - 1 ↔ (σ ref : ℚ) ≤ b := (hrb ▸ hE.2).le_iff (trunc_add_one b)
        have hhas : e.has (σ ref) ↔ ⌈a⌉ ≤ σ ref ∧ σ ref < trunc (b + 1) := by
          unfold Intv.has
          rw [hla, hrb, fin_le, fin_le, ← hlast, Int.ceil_le]
          exact and_congr_right fun _ => by omega
        have hm : Mem (e :: t) (σ ref) ↔ e.has (σ ref) ∨ Mem t (σ ref) := by simp [Mem]
        have ht : Mem t (σ ref) → ⌈a⌉ ≤ σ ref := by
          rintro ⟨f, hfm, hx⟩
          exact Int.ceil_le.mpr (hmem f (by simp [hfm]) hx)
        rw [hm, hhas]
        by_cases hmt : Mem t (σ ref)
        · have := ht hmt
          simp only [hmt, or_true, and_true, iff_true]
          omega
        · simp only [hmt, or_false]
          omega
      · refine trunc_mono ?_
        have := (hp.1 f hfm).2
        obtain ⟨a', b', hla', hrb', -⟩ := hf.fin f (by simp [hfm])
        rw [hrb, hrb', fin_le] at this
        rw [hrb']
        show b + 1 ≤ b' + 1
        linarith

end MZ.Mip
