import Verif.LinArith.Times

/-! # Lemmas: membership in a constant set -/

namespace MZ.LinArith

open MZ.LinLib

variable (o : Opts)

theorem setIn_iff (x : V) (s : Finset Int) : setIn o x s ↔ x.val ∈ s := by
  unfold setIn
  have hm : x.val ∈ s ∩ x.dom ↔ x.val ∈ s := by simp [x.mem]
  by_cases h : (s ∩ x.dom).Nonempty
  · rw [dif_pos h]
    constructor
    · rintro ⟨h1, h2, h3⟩
      split_ifs at h3 with a b
      · rw [← hm, a, Finset.mem_Icc]; exact ⟨h1, h2⟩
      · exact hm.1 h3
      · obtain ⟨p, hp, h3⟩ := h3
        by_contra hc
        have := h3 x.val (Finset.mem_sdiff.2 ⟨V_mem_Icc x, fun h' => hc (hm.1 h')⟩)
        rw [enc_at o hp x.mem] at this
        simp at this
    · intro hx
      have hx' := hm.2 hx
      refine ⟨Finset.min'_le _ _ hx', Finset.le_max' _ _ hx', ?_⟩
      split_ifs with a b
      · exact hx'
      · obtain ⟨p, hp⟩ := exists_eqEncode o x
        refine ⟨p, hp, fun i hi => ?_⟩
        rw [Finset.mem_sdiff] at hi
        rw [(eqEncode_iff o x p).1 hp i hi.1, if_neg]
        rintro rfl
        exact hi.2 hx'
  · rw [dif_neg h]
    refine ⟨False.elim, fun hx => h ⟨_, hm.2 hx⟩⟩

/-! ### The subintervals of a set -/

/-- The beginnings of the runs of a list. -/
def startsL (l : List Int) : List Int := l.filter (fun e => e - 1 ∉ l)

/-- The ends of the runs of a list. -/
def endsL (l : List Int) : List Int := l.filter (fun e => e + 1 ∉ l)

/-- How many of the intervals contain the value. -/
def hits (x : Int) (ts : List (Int × Int)) : Int := (ts.map (fun t => if x ≥ t.1 ∧ x ≤ t.2 then (1 : Int) else 0)).sum

theorem endsL_cons_gap {a : Int} {l : List Int} (hs : ∀ b ∈ l, a < b) (hg : a + 1 ∉ l) : endsL (a :: l) = a :: endsL l := by
  unfold endsL
  rw [List.filter_cons_of_pos (by simp [hg])]
  congr 1
  apply List.filter_congr
  intro e he
  have := hs e he
  simp
  intro _; omega

theorem startsL_cons_gap {a : Int} {l : List Int} (hs : ∀ b ∈ l, a < b) (hg : a + 1 ∉ l) :
    startsL (a :: l) = a :: startsL l := by
  unfold startsL
  have h0 : a - 1 ∉ l := fun h => by have := hs _ h; omega
  rw [List.filter_cons_of_pos (by simp [h0])]
  congr 1
  apply List.filter_congr
  intro e he
  simp
  intro _ h
  exact hg (by rw [show a + 1 = e by omega]; exact he)

theorem endsL_cons_next {a : Int} {l : List Int} (hs : ∀ b ∈ l, a < b) (hg : a + 1 ∈ l) : endsL (a :: l) = endsL l := by
  unfold endsL
  rw [List.filter_cons_of_neg (by simp [hg])]
  apply List.filter_congr
  intro e he
  have := hs e he
  simp
  intro _; omega

theorem startsL_cons_next {a : Int} {l : List Int} (hs : ∀ b ∈ l, a + 1 < b) :
    startsL (a :: (a + 1) :: l) = a :: (startsL ((a + 1) :: l)).tail := by
  have h0 : a - 1 ∉ l := fun h => by have := hs _ h; omega
  have h1 : a ∉ l := fun h => by have := hs _ h; omega
  have e1 : startsL ((a + 1) :: l) = (a + 1) :: l.filter (fun e => e - 1 ∉ (a + 1) :: l) := by
    unfold startsL
    rw [List.filter_cons_of_pos (by simp [h1])]
  rw [e1]
  unfold startsL
  rw [List.filter_cons_of_pos (by simp [h0]; omega), List.filter_cons_of_neg (by simp), List.tail_cons]
  congr 1
  apply List.filter_congr
  intro e he
  have := hs e he
  simp
  intro _ _; omega

theorem runs_list (x : Int) (l : List Int) (hs : l.Pairwise (· < ·)) :
    (endsL l).length = (startsL l).length ∧ hits x ((startsL l).zip (endsL l)) = (if x ∈ l then 1 else 0) ∧
    ∀ a l', l = a :: l' → ∃ r e er, startsL l = a :: r ∧ endsL l = e :: er ∧ a ≤ e := by
  induction l with
  | nil => simp [endsL, startsL, hits]
  | cons a l ih =>
    rw [List.pairwise_cons] at hs
    obtain ⟨hl, hh, hf⟩ := ih hs.2
    by_cases hg : a + 1 ∈ l
    · -- the next value is present, so it is the head of the rest
      obtain ⟨l', rfl⟩ : ∃ l', l = (a + 1) :: l' := by
        cases l with
        | nil => simp at hg
        | cons b l' =>
          have h1 := hs.1 b (by simp)
          rcases List.mem_cons.1 hg with h | h
          · exact ⟨l', by rw [h]⟩
          · have := (List.pairwise_cons.1 hs.2).1 _ h; omega
      have hb := (List.pairwise_cons.1 hs.2).1
      obtain ⟨r, e, er, h1, h2, h3⟩ := hf _ _ rfl
      have hE := endsL_cons_next hs.1 hg
      have hS := startsL_cons_next hb
      rw [h2] at hE
      rw [h1, List.tail_cons] at hS
      rw [h1, h2] at hl hh
      rw [hE, hS]
      refine ⟨by simpa using hl, ?_, ?_⟩
      · simp only [hits, List.zip_cons_cons, List.map_cons, List.sum_cons] at hh ⊢
        by_cases hx : x = a
        · subst hx
          have hn : x ∉ (x + 1) :: l' := fun h => by have := hs.1 x h; omega
          rw [if_neg hn, if_neg (by omega)] at hh
          rw [if_pos (by omega), if_pos (by simp)]
          omega
        · have hm : x ∈ a :: (a + 1) :: l' ↔ x ∈ (a + 1) :: l' := by simp [hx]
          have hc : (x ≥ a ∧ x ≤ e) ↔ (x ≥ a + 1 ∧ x ≤ e) := by omega
          simp only [hm, hc]
          exact hh
      · intro a' l'' heq
        obtain ⟨rfl, -⟩ := List.cons.inj heq
        exact ⟨r, e, er, rfl, rfl, by omega⟩
    · have hE := endsL_cons_gap hs.1 hg
      have hS := startsL_cons_gap hs.1 hg
      rw [hE, hS]
      refine ⟨by simp [hl], ?_, ?_⟩
      · simp only [hits, List.zip_cons_cons, List.map_cons, List.sum_cons] at hh ⊢
        rw [hh]
        by_cases hx : x = a
        · subst hx
          have hn : x ∉ l := fun h => by have := hs.1 x h; omega
          simp [hn]
        · rw [if_neg (by omega)]
          simp [hx]
      · intro a' l'' heq
        obtain ⟨rfl, -⟩ := List.cons.inj heq
        exact ⟨_, _, _, rfl, rfl, le_refl _⟩

theorem runStarts_eq (s : Finset Int) : runStarts s = startsL (s.sort (· ≤ ·)) := by
  unfold runStarts startsL
  apply List.filter_congr
  intro e _
  simp

theorem runEnds_eq (s : Finset Int) : runEnds s = endsL (s.sort (· ≤ ·)) := by
  unfold runEnds endsL
  apply List.filter_congr
  intro e _
  simp

theorem runs_set (x : Int) (s : Finset Int) :
    (runEnds s).length = (runStarts s).length ∧
    hits x ((runStarts s).zip (runEnds s)) = (if x ∈ s then 1 else 0) := by
  have h := runs_list x (s.sort (· ≤ ·)) (Finset.sortedLT_sort s).pairwise
  rw [runStarts_eq, runEnds_eq]
  refine ⟨h.1, ?_⟩
  rw [h.2.1]
  simp

theorem varInBigSet_eq (x : V) (s : Finset Int) : varInBigSet x s = some (if x.val ∈ s then 1 else 0) := by
  have h := runs_set x.val s
  unfold varInBigSet
  rw [if_pos h.1, ← h.2]
  rfl

theorem hits_nonneg (x : Int) (ts : List (Int × Int)) : 0 ≤ hits x ts := by
  unfold hits
  apply List.sum_nonneg
  intro v hv
  rw [List.mem_map] at hv
  obtain ⟨t, -, rfl⟩ := hv
  split_ifs <;> omega

theorem hits_pos (x : Int) (ts : List (Int × Int)) : 0 < hits x ts ↔ ∃ t ∈ ts, t.1 ≤ x ∧ x ≤ t.2 := by
  induction ts with
  | nil => simp [hits]
  | cons t ts ih =>
    have h0 := hits_nonneg x ts
    have e : hits x (t :: ts) = (if x ≥ t.1 ∧ x ≤ t.2 then 1 else 0) + hits x ts := by simp [hits]
    rw [e]
    simp only [List.mem_cons, exists_eq_or_imp]
    rw [← ih]
    by_cases c : x ≥ t.1 ∧ x ≤ t.2
    · rw [if_pos c]
      exact ⟨fun _ => Or.inl c, fun _ => by omega⟩
    · rw [if_neg c]
      constructor
      · intro h; exact Or.inr (by omega)
      · rintro (h | h)
        · exact absurd h c
        · omega

theorem altSetInReif_iff (x : V) (s : Finset Int) (b : V) : altSetInReif x s b ↔ (b.val = 1 ↔ x.val ∈ s) := by
  unfold altSetInReif
  rw [← hits_pos, (runs_set x.val s).2]
  by_cases h : x.val ∈ s <;> simp [h]

theorem sum_enc_sub {x : V} {p : Int → Int} (hp : EqEncode o x p) (s : Finset Int) :
    ∑ i ∈ s ∩ x.dom, p i = if x.val ∈ s then 1 else 0 := by
  have e : ∀ i ∈ s ∩ x.dom, p i = if i = x.val then 1 else 0 := fun i hi => enc_at o hp (Finset.mem_inter.1 hi).2
  rw [Finset.sum_congr rfl e, Finset.sum_ite_eq']
  simp [x.mem]

theorem setInReifSub_iff (x : V) (s : Finset Int) (b : V) (hb : b.IsB) :
    setInReifSub o x s b ↔ (b.val = 1 ↔ x.val ∈ s) := by
  unfold setInReifSub
  dsimp only
  have hm : x.val ∈ s ∩ x.dom ↔ x.val ∈ s := by simp [x.mem]
  have hb := hb.val_or
  split_ifs with h1 h2 h3 h4
  · have : x.val ∈ s := hm.1 (h1 x.mem)
    simp [this]
  · have : x.val ∉ s := fun h => by
      have : x.val ∈ x.dom ∩ (s ∩ x.dom) := by simp [h, x.mem]
      rw [Finset.card_eq_zero] at h2
      rw [h2] at this; simp at this
    simp [this]; omega
  · rw [hm]
  · constructor
    · rintro ⟨p, hp, h⟩
      rw [sum_enc_sub o hp] at h
      rw [← hm]
      split_ifs at h with c <;> simp [c] <;> omega
    · intro h
      obtain ⟨p, hp⟩ := exists_eqEncode o x
      refine ⟨p, hp, ?_⟩
      rw [sum_enc_sub o hp]
      rw [← hm] at h
      split_ifs with c <;> simp [c] at h <;> omega
  · rw [varInBigSet_eq, Option.some.injEq, ← hm]
    split_ifs with c <;> simp [c] <;> omega

theorem inter_mem (x : V) (s : Finset Int) : x.val ∈ s ∩ x.dom ↔ x.val ∈ s := by simp [x.mem]

theorem setInReif_iff (x : V) (s : Finset Int) (b : V) (hb : b.IsB) : setInReif o x s b ↔ (b.val = 1 ↔ x.val ∈ s) := by
  unfold setInReif
  split_ifs with h1 h2 h3
  · rw [setIn_iff]; rw [V.fix_eq h1] at h2; simp [h2]
  · rw [setIn_iff]; rw [V.fix_eq h1] at h2; simp [h2, x.mem]
  · rw [setInReifSub_iff o x _ b hb]
  · rw [setInReifSub_iff o x _ b hb, inter_mem]

theorem setInImpSub_iff (x : V) (s : Finset Int) (b : V) (hb : b.IsB) :
    setInImpSub o x s b ↔ (b.val = 1 → x.val ∈ s) := by
  unfold setInImpSub
  dsimp only
  have hm := inter_mem x s
  have hb := hb.val_or
  split_ifs with h1 h2 h3 h4 h5
  · have : x.val ∈ s := hm.1 (h1 x.mem)
    simp [this]
  · have : x.val ∉ s := fun h => by
      have : x.val ∈ x.dom ∩ (s ∩ x.dom) := by simp [h, x.mem]
      rw [Finset.card_eq_zero] at h2
      rw [h2] at this; simp at this
    simp [this]; omega
  · rw [← hm]
    constructor
    · rintro ⟨a, c⟩ h
      rw [h4, Finset.mem_Icc]; exact ⟨a h, c h⟩
    · intro h
      exact ⟨fun e => Finset.min'_le _ _ (h e), fun e => Finset.le_max' _ _ (h e)⟩
  · rw [← hm]
    constructor
    · rintro ⟨p, hp, h⟩
      rw [sum_enc_sub o hp] at h
      split_ifs at h with c
      · exact fun _ => c
      · intro e; omega
    · intro h
      obtain ⟨p, hp⟩ := exists_eqEncode o x
      refine ⟨p, hp, ?_⟩
      rw [sum_enc_sub o hp]
      split_ifs with c
      · omega
      · have : b.val ≠ 1 := fun e => c (h e)
        omega
  · rw [← hm, varInBigSet_eq]
    constructor
    · rintro ⟨v, hv, h⟩
      rw [Option.some.injEq] at hv
      intro e
      by_contra c
      rw [if_neg c] at hv
      omega
    · intro h
      refine ⟨_, rfl, ?_⟩
      split_ifs with c
      · omega
      · have : b.val ≠ 1 := fun e => c (h e)
        omega
  · exfalso
    apply h2
    rw [Finset.not_nonempty_iff_eq_empty] at h3
    rw [h3]; simp

theorem setInImp_iff (x : V) (s : Finset Int) (b : V) (hb : b.IsB) : setInImp o x s b ↔ (b.val = 1 → x.val ∈ s) := by
  unfold setInImp
  split_ifs with h1 h2 h3
  · rw [setIn_iff]; rw [V.fix_eq h1] at h2; simp [h2]
  · rw [V.fix_eq h1] at h2; simp [h2]
  · rw [setInImpSub_iff o x _ b hb]
  · rw [setInImpSub_iff o x _ b hb, inter_mem]

theorem eqEncodeArr_iff {ι : Type} (x : ι → V) (p : ι → Int → Int) :
    EqEncodeArr o x p ↔ ∀ i j, p i j = if j = (x i).val then 1 else 0 := by
  unfold EqEncodeArr
  constructor
  · rintro ⟨q, hq, h⟩ i j
    rw [h]
    split_ifs with a b b
    · rw [(eqEncode_iff o _ _).1 (hq i) j (Finset.mem_Icc.2 a), if_pos b]
    · rw [(eqEncode_iff o _ _).1 (hq i) j (Finset.mem_Icc.2 a), if_neg b]
    · subst b; exact absurd ⟨(x i).lb_le, (x i).le_ub⟩ a
    · rfl
  · intro h
    refine ⟨p, fun i => (eqEncode_iff o _ _).2 fun j _ => h i j, fun i j => ?_⟩
    split_ifs with a
    · rfl
    · rw [h, if_neg]
      rintro rfl
      exact a ⟨(x i).lb_le, (x i).le_ub⟩

end MZ.LinArith
