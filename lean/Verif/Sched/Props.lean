import Verif.Sched.Pack

/-!
# C73: the scheduling and packing constraints mean what their documentation says
-/

namespace MZ.Sched
open MZ.Globals MZ.Sched.Spec

/-- `cumulative` holds exactly if at no time the running tasks need more than the capacity, whichever of its three
implementations the bounds select (disjunctive, time points, task starts).  Durations and resources are non-negative
(asserted), the capacity is assumed non-negative, and the computed bounds enclose the values. -/
theorem _root_.MZ.C73_cumulative_partial (s d r : Arr Int) (b : Int) (lbS ubS lbD ubD lbR ubR : Int → Int) (ubB mri : Int)
    (hidx : d.lo = s.lo ∧ d.hi = s.hi ∧ r.lo = s.lo ∧ r.hi = s.hi)
    (hs : Within s lbS ubS) (hd : Within d lbD ubD) (hr : Within r lbR ubR) (hb : b ≤ ubB)
    (hd0 : ∀ i ∈ s.idx, 0 ≤ lbD i) (hr0 : ∀ i ∈ s.idx, 0 ≤ lbR i)
    (hmri : s.idx.Nonempty → mri ∈ r.idx ∧ ∀ i ∈ r.idx, lbR mri ≤ lbR i)
    (hb0 : 0 ≤ b) :
    ∃ P, cumulative s d r b lbS ubS lbD ubD lbR ubR ubB mri = some P ∧ (P ↔ Cumulative s.idx s d r b) := by
  have hdi : d.idx = s.idx := by unfold Arr.idx; rw [hidx.1, hidx.2.1]
  have hri : r.idx = s.idx := by unfold Arr.idx; rw [hidx.2.2.1, hidx.2.2.2]
  unfold Within at hd hr
  rw [hdi] at hd
  rw [hri] at hr
  unfold cumulative
  by_cases hne : s.idx.card ≥ 1
  · rw [if_pos hne]
    have hnonempty : s.idx.Nonempty := Finset.card_pos.1 (by omega)
    obtain ⟨hm1, hm2⟩ := hmri hnonempty
    rw [hri] at hm1 hm2 ⊢
    have hmin : minOf s.idx lbR = lbR mri := by
      obtain ⟨i, hi, he⟩ := minOf_mem (S := s.idx) (f := lbR) hnonempty
      have := hm2 i hi
      have := minOf_le (f := lbR) hm1
      omega
    by_cases hfix : ∀ i ∈ s.idx, lbR i = ubR i ∧ (lbR i + minOf s.idx lbR > ubB ∨ i = mri)
    · rw [if_pos hfix, hdi]
      have hfixed : ∀ i ∈ s.idx, r i = lbR i := fun i hi => by
        have := hr i hi; have := (hfix i hi).1; omega
      -- no two different tasks fit together
      have hpair : ∀ i ∈ s.idx, ∀ j ∈ s.idx, i ≠ j → r i + r j > b := by
        intro i hi j hj hij
        have h1 := hfixed i hi
        have h2 := hfixed j hj
        have h3 := hm2 i hi
        have h4 := hm2 j hj
        rcases (hfix i hi).2 with h | h
        · omega
        · rcases (hfix j hj).2 with h' | h'
          · omega
          · exact absurd (h.trans h'.symm) hij
      have hrn : ∀ i ∈ s.idx, 0 ≤ r i := fun i hi => by have := hr i hi; have := hr0 i hi; omega
      have hdn : ∀ i ∈ s.idx, 0 ≤ d i := fun i hi => by have := hd i hi; have := hd0 i hi; omega
      have key : ((∀ i ∈ s.idx, d i = 0 ∨ lbR i ≤ b) ∧ Disjunctive s.idx s d) ↔ Cumulative s.idx s d r b := by
        constructor
        · rintro ⟨h1, h2⟩ t
          by_cases hR : (s.idx.filter (fun i => Runs s d i t)).Nonempty
          · obtain ⟨i, hi⟩ := hR
            have hi' := Finset.mem_filter.1 hi
            have he : s.idx.filter (fun i => Runs s d i t) = {i} := by
              ext k
              rw [Finset.mem_singleton, Finset.mem_filter]
              constructor
              · rintro ⟨hk, hkr⟩
                exact (h2 t i hi'.1 k hk hi'.2 hkr).symm
              · rintro rfl
                exact hi'
            rw [he, Finset.sum_singleton, hfixed i hi'.1]
            rcases h1 i hi'.1 with h | h
            · have := hi'.2; unfold Runs at this; omega
            · exact h
          · rw [Finset.not_nonempty_iff_eq_empty.1 hR, Finset.sum_empty]; exact hb0
        · intro h
          refine ⟨fun i hi => ?_, fun t i hi j hj ri rj => ?_⟩
          · by_cases h0 : d i = 0
            · exact Or.inl h0
            · right
              have hrun : Runs s d i (s i) := by have := hdn i hi; unfold Runs; omega
              have := h (s i)
              have h1 : r i ≤ ∑ k ∈ s.idx.filter (fun k => Runs s d k (s i)), r k :=
                Finset.single_le_sum (f := r.val) (fun k hk => hrn k (Finset.mem_filter.1 hk).1)
                  (Finset.mem_filter.2 ⟨hi, hrun⟩)
              have := hfixed i hi
              omega
          · by_contra hij
            have h1 : ∑ k ∈ ({i, j} : Finset Int), r k ≤ ∑ k ∈ s.idx.filter (fun k => Runs s d k t), r k := by
              apply sum_mono'
              · intro k hk
                rw [Finset.mem_insert, Finset.mem_singleton] at hk
                rw [Finset.mem_filter]
                rcases hk with rfl | rfl
                · exact ⟨hi, ri⟩
                · exact ⟨hj, rj⟩
              · intro k hk
                exact hrn k (Finset.mem_filter.1 hk).1
            rw [Finset.sum_pair hij] at h1
            have := h t
            have := hpair i hi j hj hij
            omega
      by_cases hone : s.idx.card = 1
      · refine ⟨_, by rw [if_pos hone], ?_⟩
        rw [← key]
        constructor
        · intro h
          refine ⟨h, fun t i hi j hj _ _ => ?_⟩
          exact Finset.card_le_one.1 (by omega) i hi j hj
        · exact fun h => h.1
      · rw [if_neg hone]
        by_cases hunit : ∀ i ∈ s.idx, lbD i = ubD i ∧ lbD i = 1
        · refine ⟨_, by rw [if_pos hunit], ?_⟩
          rw [← key]
          have hd1 : ∀ i ∈ s.idx, d i = 1 := fun i hi => by
            have := hunit i hi; have := hd i hi; omega
          apply and_congr_right
          intro _
          unfold fznAllDifferent Disjunctive Runs
          constructor
          · intro h t i hi j hj r1 r2
            have e1 := hd1 i hi
            have e2 := hd1 j hj
            by_contra hne
            rcases lt_or_gt_of_ne hne with hlt | hlt
            · exact h i hi j hj hlt (by omega)
            · exact h j hj i hi hlt (by omega)
          · intro h i hi j hj hlt he
            have e1 := hd1 i hi
            have e2 := hd1 j hj
            have := h (s i) i hi j hj (by omega) (by omega)
            omega
        · rw [if_neg hunit]
          have hcard : d.idx.card ≠ 0 := by rw [hdi]; omega
          unfold disjunctive
          rw [if_neg hcard]
          have hdn' : ∀ i ∈ d.idx, 0 ≤ d i := by rw [hdi]; exact hdn
          by_cases hpos : minOf d.idx lbD > 0
          · rw [if_pos hpos]
            refine ⟨_, rfl, ?_⟩
            rw [← key, fznDisjunctiveStrict_iff s d hdn', hdi]
            apply and_congr_right
            intro _
            unfold DisjunctiveStrict
            refine ⟨fun h => h.1, fun h => ⟨h, fun i hi j hj h0 => ?_⟩⟩
            have := minOf_le (f := lbD) (hdi.symm ▸ hj)
            have := hd j hj
            omega
          · rw [if_neg hpos]
            refine ⟨_, rfl, ?_⟩
            rw [← key, fznDisjunctive_iff s d hdn', hdi]
    · rw [if_neg hfix]
      refine ⟨_, rfl, ?_⟩
      rw [fznCumulative_iff hs (fun i hi => (hd i hi).2) (fun i hi => ⟨by have := hr i hi; have := hr0 i hi; omega, (hr i hi).2⟩)]
      have : s.idx ≠ ∅ := hnonempty.ne_empty
      simp [this]
  · rw [if_neg hne]
    refine ⟨True, rfl, ?_⟩
    have he : s.idx = ∅ := Finset.card_eq_zero.1 (by omega)
    unfold Cumulative
    rw [he]
    simp [hb0]

/-- For a negative capacity the implementations of `cumulative` disagree: a single task of duration 0 is accepted
with capacity −1, although the decomposition the same call would use for two possible resource levels rejects it. -/
theorem _root_.MZ.C73_cumulative_negative_fails :
    ∃ (s d r : Arr Int) (b : Int) (z one : Int → Int),
      cumulative s d r b z z z z one one b 1 = some (∀ i ∈ r.idx, d i = 0 ∨ one i ≤ b) ∧
      (∀ i ∈ r.idx, d i = 0 ∨ one i ≤ b) ∧
      ¬fznCumulative s d r b z z z one ∧ ¬Cumulative s.idx s d r b := by
  refine ⟨⟨1, 1, fun _ => 0⟩, ⟨1, 1, fun _ => 0⟩, ⟨1, 1, fun _ => 1⟩, -1, fun _ => 0, fun _ => 1, ?_, ?_, ?_, ?_⟩
  · unfold cumulative
    rw [if_pos (by decide), if_pos (by intro i hi; exact ⟨rfl, Or.inr (by simpa [Arr.idx] using hi)⟩),
      if_pos (by decide)]
  · intro i _; exact Or.inl rfl
  · unfold fznCumulative
    rw [if_pos (by decide)]
    decide
  · intro h
    have := h 100
    revert this
    decide

/-- The time-point form of the reified `cumulative` gives the truth value of the constraint, and so does the task form
as long as every task has positive duration. -/
theorem _root_.MZ.C73_cumulative_reif_partial (s d r : Arr Int) (b : Int) (q : Prop) (lbS ubS ubD ubR : Int → Int)
    (hne : s.idx.Nonempty)
    (hs : Within s lbS ubS) (hd : ∀ i ∈ s.idx, 0 ≤ d i ∧ d i ≤ ubD i) (hr : ∀ i ∈ s.idx, 0 ≤ r i ∧ r i ≤ ubR i)
    (hpos : (∀ i ∈ s.idx, 0 < d i) ∨ late s ubS ubD ubR - early s lbS ubD ubR ≤ 5000) :
    fznCumulativeReif s d r b q lbS ubS ubD ubR ↔ (q ↔ Cumulative s.idx s d r b) := by
  unfold fznCumulativeReif
  by_cases h0 : 0 = (tasks s ubD ubR).card
  · rw [if_pos h0, none_iff (fun i hi => (hd i hi).2) hr h0]
    have : ¬ 0 = s.idx.card := by have := Finset.card_pos.2 hne; omega
    simp only [this, false_or]
  · rw [if_neg h0]
    have hT : (tasks s ubD ubR).Nonempty := by rw [← Finset.card_pos]; omega
    by_cases hl : late s ubS ubD ubR - early s lbS ubD ubR > 5000
    · rw [if_pos hl]
      rcases hpos with hpos | hpos
      · unfold cumTaskReif
        rw [← core_task s.idx (tasks s ubD ubR) tasks_sub s d r b (not_task (fun i hi => (hd i hi).2) hr)
          (fun i hi => (hr i hi).1) (Or.inl hT)]
        have : (∀ j ∈ tasks s ubD ubR,
            b ≥ r j + ∑ i ∈ (tasks s ubD ubR).filter (fun i => i ≠ j), b2i (s i ≤ s j ∧ s j < s i + d i) * r i) ↔
            ∀ j ∈ tasks s ubD ubR, ∑ i ∈ (tasks s ubD ubR).filter (fun i => Runs s d i (s j)), r i ≤ b := by
          apply forall_congr'
          intro j
          apply imp_congr_right
          intro hj
          rw [task_form (tasks s ubD ubR) s d r j hj (hpos j (tasks_sub hj))]
        rw [this]
      · omega
    · rw [if_neg hl]
      unfold cumTimeReif
      have := cumTime_iff (b := b) hs (fun i hi => (hd i hi).2) hr hT
      unfold cumTime at this
      rw [this]

/-- A task of duration 0 (whose duration could have been positive) is counted by the reified form used for horizons
longer than 5000: two tasks, the second of duration 0, satisfy `cumulative`, and the constraint is reported false. -/
theorem _root_.MZ.C73_cumulative_reif_fails :
    ∃ (s d r : Arr Int) (b : Int) (lbS ubS ubD ubR : Int → Int),
      Within s lbS ubS ∧ (∀ i ∈ s.idx, 0 ≤ d i ∧ d i ≤ ubD i) ∧ (∀ i ∈ s.idx, 0 ≤ r i ∧ r i ≤ ubR i) ∧
      fznCumulative s d r b lbS ubS ubD ubR ∧ Cumulative s.idx s d r b ∧
      fznCumulativeReif s d r b False lbS ubS ubD ubR ∧ ¬fznCumulativeReif s d r b True lbS ubS ubD ubR := by
  let s : Arr Int := ⟨1, 2, fun i => i⟩
  let d : Arr Int := ⟨1, 2, fun i => if i = 1 then 1 else 0⟩
  let r : Arr Int := ⟨1, 2, fun i => i⟩
  let lbS : Int → Int := fun _ => 0
  let ubS : Int → Int := fun _ => 6000
  let ubD : Int → Int := fun _ => 1
  let ubR : Int → Int := fun _ => 2
  have hidx : s.idx = {1, 2} := by decide
  have hs : Within s lbS ubS := by
    intro i hi; rw [hidx] at hi; simp at hi; rcases hi with rfl | rfl <;> decide
  have hd : ∀ i ∈ s.idx, 0 ≤ d i ∧ d i ≤ ubD i := by
    intro i hi; rw [hidx] at hi; simp at hi; rcases hi with rfl | rfl <;> decide
  have hr : ∀ i ∈ s.idx, 0 ≤ r i ∧ r i ≤ ubR i := by
    intro i hi; rw [hidx] at hi; simp at hi; rcases hi with rfl | rfl <;> decide
  have hT : tasks s ubD ubR = {1, 2} := by decide
  have hcum : Cumulative s.idx s d r 1 := by
    intro t
    have hsub : s.idx.filter (fun i => Runs s d i t) ⊆ {1} := by
      intro i hi
      rw [Finset.mem_filter, hidx] at hi
      obtain ⟨h1, h2⟩ := hi
      simp at h1 ⊢
      rcases h1 with rfl | rfl
      · rfl
      · unfold Runs at h2
        simp [s, d] at h2
        omega
    refine le_trans (sum_mono' _ _ hsub _ ?_) ?_
    · intro i hi; simp at hi; subst hi; decide
    · simp [r]
  have hearly : early s lbS ubD ubR = 0 := by
    unfold early
    rw [hT]; decide
  have hlate : late s ubS ubD ubR = 6001 := by
    unfold late
    rw [hT]; decide
  have hnot : ¬∀ j ∈ tasks s ubD ubR,
      (1 : Int) ≥ r j + ∑ i ∈ (tasks s ubD ubR).filter (fun i => i ≠ j), b2i (s i ≤ s j ∧ s j < s i + d i) * r i := by
    intro h
    have := h 2 (by rw [hT]; decide)
    rw [hT] at this
    revert this
    decide
  have hreif : ∀ q, fznCumulativeReif s d r 1 q lbS ubS ubD ubR ↔ (q ↔ False) := by
    intro q
    unfold fznCumulativeReif
    rw [if_neg (by rw [hT]; decide), if_pos (by rw [hearly, hlate]; decide)]
    unfold cumTaskReif
    exact iff_congr Iff.rfl (iff_false_intro hnot)
  refine ⟨s, d, r, 1, lbS, ubS, ubD, ubR, hs, hd, hr, ?_, hcum, ?_, ?_⟩
  · exact (fznCumulative_iff hs (fun i hi => (hd i hi).2) hr).2 (Or.inr hcum)
  · exact (hreif False).2 Iff.rfl
  · intro h
    exact ((hreif True).1 h).1 trivial

/-- `cumulative` over optional tasks holds exactly if at no time the running present tasks need more than the
capacity, provided that the horizon is at most 5000 or all durations are positive and the capacity non-negative. -/
theorem _root_.MZ.C73_cumulative_opt_partial (s : Arr (Option Int)) (d r : Arr Int) (b : Int) (ubO : Int → Bool)
    (lbS ubS ubD ubR : Int → Int) (hne : s.idx.Nonempty)
    (hs : ∀ i ∈ s.idx, ∀ v, s i = some v → lbS i ≤ v ∧ v ≤ ubS i) (hdom : ∀ i ∈ s.idx, lbS i ≤ ubS i)
    (hO : ∀ i ∈ s.idx, (s i).isSome = true → ubO i = true)
    (hd : ∀ i ∈ s.idx, 0 ≤ d i ∧ d i ≤ ubD i) (hr : ∀ i ∈ s.idx, 0 ≤ r i ∧ r i ≤ ubR i)
    (hpos : ((∀ i ∈ s.idx, 0 < d i) ∧ 0 ≤ b) ∨
      maxOf (tasksOpt s ubO ubD ubR) (fun i => ubS i + ubD i) - minOf (tasksOpt s ubO ubD ubR) lbS ≤ 5000) :
    fznCumulativeOpt s d r b ubO lbS ubS ubD ubR ↔
      Cumulative (s.idx.filter (fun i => (s i).isSome = true)) (fun i => (s i).getD 0) d r b := by
  show _ ↔ Cumulative (present s) (starts s) d r b
  have hr' : ∀ i ∈ present s, 0 ≤ r i := fun i hi => (hr i (Finset.mem_filter.1 hi).1).1
  have hn := not_pTask (s := s) (ubO := ubO) hO (fun i hi => (hd i hi).2) hr
  unfold fznCumulativeOpt
  by_cases h0 : 0 = (tasksOpt s ubO ubD ubR).card
  · rw [if_pos h0]
    have he : tasksOpt s ubO ubD ubR = ∅ := Finset.card_eq_zero.1 h0.symm
    have hp : pTasks s ubO ubD ubR = ∅ := by unfold pTasks; rw [he]; rfl
    have hz : ∀ t, ∑ i ∈ (present s).filter (fun i => Runs (starts s) d i t), r i = 0 := by
      intro t
      rw [← sum_sub (present s) _ (pTasks_sub (ubO := ubO) (ubD := ubD) (ubR := ubR)) (fun i => Runs (starts s) d i t) r (hn t), hp]
      rfl
    have : ¬ 0 = s.idx.card := by have := Finset.card_pos.2 hne; omega
    unfold Cumulative
    simp only [this, false_or, hz]
    exact ⟨fun h _ => h, fun h => h 0⟩
  · rw [if_neg h0]
    have hT : (tasksOpt s ubO ubD ubR).Nonempty := by rw [← Finset.card_pos]; omega
    by_cases hl : maxOf (tasksOpt s ubO ubD ubR) (fun i => ubS i + ubD i) - minOf (tasksOpt s ubO ubD ubR) lbS > 5000
    · rw [if_pos hl]
      rcases hpos with ⟨hpos, hb⟩ | hpos
      · rw [← core_task (present s) (pTasks s ubO ubD ubR) pTasks_sub (starts s) d r b hn hr' (Or.inr hb)]
        unfold cumOptTask
        constructor
        · intro h j hj
          have hj' := Finset.mem_filter.1 hj
          have := h j hj'.1 hj'.2
          rw [sum_opt_ne j hj (hpos j ((mem_tasksOpt j).1 hj'.1).1)] at this
          exact this
        · intro h j hj hjs
          have hjp : j ∈ pTasks s ubO ubD ubR := Finset.mem_filter.2 ⟨hj, hjs⟩
          rw [sum_opt_ne j hjp (hpos j ((mem_tasksOpt j).1 hj).1)]
          exact h j hjp
      · omega
    · rw [if_neg hl]
      unfold cumOptTime
      simp only [sum_opt, ge_iff_le]
      apply core_time (present s) (pTasks s ubO ubD ubR) pTasks_sub (starts s) d r b _ _ hn hr'
      · obtain ⟨i, hi⟩ := hT
        have e1 := minOf_le (f := lbS) hi
        have e2 := le_maxOf (f := fun i => ubS i + ubD i) hi
        have e3 := (mem_tasksOpt i).1 hi
        have e4 := hdom i e3.1
        omega
      · intro i hi
        have hi' := Finset.mem_filter.1 hi
        have e1 := minOf_le (f := lbS) hi'.1
        have e2 := le_maxOf (f := fun i => ubS i + ubD i) hi'.1
        have e3 := (mem_tasksOpt i).1 hi'.1
        obtain ⟨v, hv⟩ := Option.isSome_iff_exists.1 hi'.2
        have e4 := hs i e3.1 v hv
        have e5 := hd i e3.1
        have e6 : starts s i = v := by unfold starts deopt; rw [hv]; rfl
        rw [e6]
        omega

/-- With optional tasks and a horizon longer than 5000, a present task of duration 0 is charged its resource: the
constraint holds by its documentation and the decomposition rejects it; the same tasks with a short horizon are
accepted. -/
theorem _root_.MZ.C73_cumulative_opt_fails :
    ∃ (s : Arr (Option Int)) (d r : Arr Int) (b : Int) (ubO : Int → Bool) (lbS ubS ubS' ubD ubR : Int → Int),
      (∀ i ∈ s.idx, ∀ v, s i = some v → lbS i ≤ v ∧ v ≤ ubS' i ∧ ubS' i ≤ ubS i) ∧
      (∀ i ∈ s.idx, 0 ≤ d i ∧ d i ≤ ubD i) ∧ (∀ i ∈ s.idx, 0 ≤ r i ∧ r i ≤ ubR i) ∧
      Cumulative (s.idx.filter (fun i => (s i).isSome = true)) (fun i => (s i).getD 0) d r b ∧
      fznCumulativeOpt s d r b ubO lbS ubS' ubD ubR ∧ ¬fznCumulativeOpt s d r b ubO lbS ubS ubD ubR := by
  let s : Arr (Option Int) := ⟨1, 1, fun _ => some 3⟩
  let d : Arr Int := ⟨1, 1, fun _ => 0⟩
  let r : Arr Int := ⟨1, 1, fun _ => 2⟩
  let lbS : Int → Int := fun _ => 0
  let ubS : Int → Int := fun _ => 6000
  let ubS' : Int → Int := fun _ => 10
  let ubD : Int → Int := fun _ => 1
  let ubR : Int → Int := fun _ => 2
  have hidx : s.idx = {1} := by decide
  have hT : tasksOpt s (fun _ => true) ubD ubR = {1} := by decide
  have hcum : Cumulative (s.idx.filter (fun i => (s i).isSome = true)) (fun i => (s i).getD 0) d r 1 := by
    intro t
    rw [Finset.sum_eq_zero]
    · decide
    · intro i hi
      have h2 := (Finset.mem_filter.1 hi).2
      unfold Runs at h2
      simp [s, d] at h2
      omega
  have hs : ∀ i ∈ s.idx, ∀ v, s i = some v → lbS i ≤ v ∧ v ≤ ubS' i ∧ ubS' i ≤ ubS i := by
    intro i _ v hv
    simp [s] at hv
    subst hv
    decide
  have hd : ∀ i ∈ s.idx, 0 ≤ d i ∧ d i ≤ ubD i := by intro i _; simp [d, ubD]
  have hr : ∀ i ∈ s.idx, 0 ≤ r i ∧ r i ≤ ubR i := by intro i _; simp [r, ubR]
  refine ⟨s, d, r, 1, fun _ => true, lbS, ubS, ubS', ubD, ubR, hs, hd, hr, hcum, ?_, ?_⟩
  · refine (C73_cumulative_opt_partial s d r 1 (fun _ => true) lbS ubS' ubD ubR ⟨1, by rw [hidx]; decide⟩
      (fun i hi v hv => ⟨(hs i hi v hv).1, (hs i hi v hv).2.1⟩) (fun i _ => by simp [lbS, ubS'])
      (fun _ _ _ => rfl) hd hr (Or.inr ?_)).2 hcum
    rw [hT]; decide
  · intro h
    unfold fznCumulativeOpt at h
    rw [if_neg (by rw [hT]; decide), if_pos (by rw [hT]; decide)] at h
    have := h 1 (by rw [hT]; decide) rfl
    rw [hT] at this
    revert this
    decide

/-- `disjunctive` over at least one task holds exactly if no two tasks run at the same time. -/
theorem _root_.MZ.C73_disjunctive_partial (s d : Arr Int) (lbD : Int → Int) (hne : d.idx.Nonempty)
    (hd : ∀ i ∈ d.idx, 0 ≤ d i ∧ lbD i ≤ d i) :
    ∃ P, disjunctive s d lbD = some P ∧ (P ↔ Disjunctive d.idx s d) := by
  have hcard : d.idx.card ≠ 0 := by have := Finset.card_pos.2 hne; omega
  unfold disjunctive
  rw [if_neg hcard]
  by_cases hpos : minOf d.idx lbD > 0
  · rw [if_pos hpos]
    refine ⟨_, rfl, ?_⟩
    rw [fznDisjunctiveStrict_iff s d (fun i hi => (hd i hi).1)]
    unfold DisjunctiveStrict
    refine ⟨fun h => h.1, fun h => ⟨h, fun i hi j hj h0 => ?_⟩⟩
    have := minOf_le (f := lbD) hj
    have := hd j hj
    omega
  · rw [if_neg hpos]
    exact ⟨_, rfl, fznDisjunctive_iff s d (fun i hi => (hd i hi).1)⟩

/-- `disjunctive_strict` holds exactly if no two tasks run at the same time and no task of duration 0 lies inside
another one. -/
theorem _root_.MZ.C73_disjunctive_strict (s d : Arr Int) (hd : ∀ i ∈ d.idx, 0 ≤ d i) :
    fznDisjunctiveStrict s d ↔ DisjunctiveStrict d.idx s d := fznDisjunctiveStrict_iff s d hd

/-- Without tasks `disjunctive` does not hold trivially but stops with an evaluation error (in `lb_array`). -/
theorem _root_.MZ.C73_disjunctive_empty_fails :
    ∃ s d : Arr Int, Disjunctive d.idx s d ∧ ∀ lbD, disjunctive s d lbD = none := by
  refine ⟨⟨1, 0, fun _ => 0⟩, ⟨1, 0, fun _ => 0⟩, ?_, fun lbD => ?_⟩
  · intro t i hi; simp [Arr.idx] at hi
  · unfold disjunctive; rw [if_pos (by decide)]

/-- `disjunctive` over optional tasks holds exactly if no two present tasks run at the same time. -/
theorem _root_.MZ.C73_disjunctive_opt_partial (s : Arr (Option Int)) (d : Arr Int) (lbD : Int → Int) (hne : d.idx.Nonempty)
    (hd : ∀ i ∈ d.idx, 0 ≤ d i ∧ lbD i ≤ d i) :
    ∃ P, disjunctiveOpt s d lbD = some P ∧
      (P ↔ Disjunctive (d.idx.filter (fun i => (s i).isSome = true)) (fun i => (s i).getD 0) d) := by
  have hcard : d.idx.card ≠ 0 := by have := Finset.card_pos.2 hne; omega
  have hpres : ∀ i, s i = none ∨ (s i).isSome = true := by
    intro i; cases s i <;> simp
  have key : fznDisjunctiveOpt s d ↔
      Disjunctive (d.idx.filter (fun i => (s i).isSome = true)) (fun i => (s i).getD 0) d := by
    unfold fznDisjunctiveOpt Disjunctive Runs
    constructor
    · intro h t i hi j hj r1 r2
      rw [Finset.mem_filter] at hi hj
      by_contra hc
      have hi' : s i ≠ none := by intro he; rw [he] at hi; simp at hi
      have hj' : s j ≠ none := by intro he; rw [he] at hj; simp at hj
      rcases lt_or_gt_of_ne hc with hlt | hlt
      · rcases h i hi.1 j hj.1 hlt with h | h | h | h | h | h
        · exact hi' h
        · exact hj' h
        all_goals ((first | unfold deopt at h | skip); dsimp only at r1 r2; omega)
      · rcases h j hj.1 i hi.1 hlt with h | h | h | h | h | h
        · exact hj' h
        · exact hi' h
        all_goals ((first | unfold deopt at h | skip); dsimp only at r1 r2; omega)
    · intro h i hi j hj hlt
      by_contra hc
      push Not at hc
      have h1 := hd i hi
      have h2 := hd j hj
      have hi' : i ∈ d.idx.filter (fun i => (s i).isSome = true) :=
        Finset.mem_filter.2 ⟨hi, (hpres i).resolve_left hc.1⟩
      have hj' : j ∈ d.idx.filter (fun i => (s i).isSome = true) :=
        Finset.mem_filter.2 ⟨hj, (hpres j).resolve_left hc.2.1⟩
      unfold deopt at hc
      rcases le_total ((s i).getD 0) ((s j).getD 0) with hle | hle
      · have := h ((s j).getD 0) i hi' j hj' (by dsimp only; omega) (by dsimp only; omega)
        omega
      · have := h ((s i).getD 0) i hi' j hj' (by dsimp only; omega) (by dsimp only; omega)
        omega
  unfold disjunctiveOpt
  rw [if_neg hcard]
  by_cases hpos : minOf d.idx lbD > 0
  · rw [if_pos hpos]
    refine ⟨_, rfl, ?_⟩
    rw [← key]
    unfold fznDisjunctiveStrictOpt fznDisjunctiveOpt
    constructor
    · rintro ⟨_, _, h⟩ i hi j hj hlt
      have := h i hi j hj hlt
      tauto
    · intro h
      refine ⟨fun i hi => (hd i hi).1, fun i hi => (hd i hi).1, fun i hi j hj hlt => ?_⟩
      have e1 := minOf_le (f := lbD) hi
      have e2 := minOf_le (f := lbD) hj
      have e3 := hd i hi
      have e4 := hd j hj
      rcases h i hi j hj hlt with h | h | h | h | h | h
      · exact Or.inl h
      · exact Or.inr (Or.inl h)
      · omega
      · omega
      · exact Or.inr (Or.inr (Or.inl h))
      · exact Or.inr (Or.inr (Or.inr h))
  · rw [if_neg hpos]
    refine ⟨_, rfl, ?_⟩
    rw [← key]
    exact ⟨fun h => h.2, fun h => ⟨fun i hi => (hd i hi).1, h⟩⟩

/-- `cumulatives` holds exactly if at every time, on every machine that runs a task, the running tasks need at most
(at least) the bound of the machine; resources may be negative. -/
theorem _root_.MZ.C73_cumulatives (s d r m bound : Arr Int) (upper : Bool) (lbM ubM : Int → Int)
    (hidx : s.lo = d.lo ∧ s.hi = d.hi ∧ s.lo = r.lo ∧ s.hi = r.hi ∧ s.lo = m.lo ∧ s.hi = m.hi)
    (hd : ∀ i ∈ s.idx, 0 ≤ d i) (hm : Within m lbM ubM)
    (hrange : ∀ i ∈ m.idx, bound.lo ≤ lbM i ∧ ubM i ≤ bound.hi) :
    ∃ P, cumulativesHelper s d r m bound upper lbM ubM = some P ∧
      (P ↔ Cumulatives s.idx s d r m bound upper) := by
  unfold cumulativesHelper
  rw [if_pos hidx]
  have hmi : m.idx = s.idx := by unfold Arr.idx; rw [hidx.2.2.2.2.1, hidx.2.2.2.2.2]
  by_cases hne : s.idx.card ≥ 1
  · rw [if_pos hne]
    have hnonempty : m.idx.Nonempty := by rw [hmi]; exact Finset.card_pos.1 (by omega)
    have h1 : minOf m.idx lbM ≥ bound.lo ∧ maxOf m.idx ubM ≤ bound.hi := by
      obtain ⟨i, hi, e1⟩ := minOf_mem (f := lbM) hnonempty
      obtain ⟨j, hj, e2⟩ := maxOf_mem (f := ubM) hnonempty
      have := hrange i hi
      have := hrange j hj
      omega
    rw [if_pos h1]
    refine ⟨_, rfl, fznCumulatives_iff s d r m bound upper hd (fun i hi => ?_)⟩
    rw [← hmi] at hi
    have := hm i hi
    have := hrange i hi
    rw [Arr.mem_idx]
    omega
  · rw [if_neg hne]
    refine ⟨True, rfl, ?_⟩
    have he : s.idx = ∅ := Finset.card_eq_zero.1 (by omega)
    unfold Cumulatives
    rw [he]
    simp

/-- `cumulatives` over optional tasks, for arrays indexed from 1. -/
theorem _root_.MZ.C73_cumulatives_opt_partial (s : Arr (Option Int)) (d r m bound : Arr Int) (upper : Bool) (lbM ubM : Int → Int)
    (hlo : s.lo = 1) (hhi : 0 ≤ s.hi) (hidx : d.lo = 1 ∧ d.hi = s.hi ∧ r.lo = 1 ∧ r.hi = s.hi ∧ m.lo = 1 ∧ m.hi = s.hi)
    (hd : ∀ i ∈ s.idx, 0 ≤ d i) (hm : Within m lbM ubM)
    (hrange : ∀ i ∈ m.idx, bound.lo ≤ lbM i ∧ ubM i ≤ bound.hi) :
    ∃ P, fznCumulativesOpt s d r m bound upper lbM ubM = some P ∧
      (P ↔ Cumulatives (s.idx.filter (fun i => (s i).isSome = true)) (fun i => (s i).getD 0) d r m bound upper) := by
  obtain ⟨c1, c2, c3⟩ := compr_one s (fun si => si.getD 0) hlo hhi
  have hlen : s.len = s.hi := by rw [len_eq s (by omega)]; omega
  have hki : ∀ k : Int, s.lo + k - 1 = k := fun k => by omega
  have hsi : (s.compr (fun si => si.getD 0)).idx = s.idx := by unfold Arr.idx; rw [c1, c2, hlo]
  unfold fznCumulativesOpt
  obtain ⟨P, hP, hiff⟩ := C73_cumulatives (s.compr (fun si => si.getD 0))
    ⟨1, s.len, fun k => if (s (s.lo + k - 1)).isSome then d (s.lo + k - 1) else 0⟩ r m bound upper lbM ubM
    ⟨c1, by rw [c2]; exact hlen.symm, by rw [c1, hidx.2.2.1], by rw [c2, hidx.2.2.2.1], by rw [c1, hidx.2.2.2.2.1],
      by rw [c2, hidx.2.2.2.2.2]⟩
    (fun i hi => by
      rw [hsi] at hi
      show 0 ≤ if (s (s.lo + i - 1)).isSome = true then d (s.lo + i - 1) else 0
      rw [hki]
      split
      · exact hd i hi
      · exact le_refl _) hm hrange
  refine ⟨P, hP, ?_⟩
  rw [hiff, hsi]
  have hrun : ∀ k t, (Runs (s.compr (fun si => si.getD 0)) (fun k => if (s (s.lo + k - 1)).isSome = true then d (s.lo + k - 1) else 0) k t) ↔
      ((s k).isSome = true ∧ Runs (fun i => (s i).getD 0) d k t) := by
    intro k t
    unfold Runs
    rw [c3]
    dsimp only
    rw [hki]
    by_cases h : (s k).isSome = true
    · simp [h]
    · simp only [h]
      simp
  unfold Cumulatives
  apply forall_congr'; intro k
  apply forall_congr'; intro t
  have hfil : s.idx.filter (fun i => m i = k ∧ Runs (s.compr (fun si => si.getD 0)) (fun k => if (s (s.lo + k - 1)).isSome = true then d (s.lo + k - 1) else 0) i t) =
      (s.idx.filter (fun i => (s i).isSome = true)).filter (fun i => m i = k ∧ Runs (fun i => (s i).getD 0) d i t) := by
    ext i
    simp only [Finset.mem_filter]
    rw [hrun]
    tauto
  have hex : (∃ i ∈ s.idx, m i = k ∧ Runs (s.compr (fun si => si.getD 0)) (fun k => if (s (s.lo + k - 1)).isSome = true then d (s.lo + k - 1) else 0) i t) ↔
      ∃ i ∈ s.idx.filter (fun i => (s i).isSome = true), m i = k ∧ Runs (fun i => (s i).getD 0) d i t := by
    constructor
    · rintro ⟨i, hi, h1, h2⟩
      rw [hrun] at h2
      exact ⟨i, Finset.mem_filter.2 ⟨hi, h2.1⟩, h1, h2.2⟩
    · rintro ⟨i, hi, h1, h2⟩
      rw [Finset.mem_filter] at hi
      exact ⟨i, hi.1, h1, (hrun i t).2 ⟨hi.2, h2⟩⟩
  rw [hfil, hex]

/-- Arrays of optional tasks or items that are not indexed from 1 make `cumulatives` and `bin_packing` abort: the
comprehension that replaces the absent values drops the index set, and the index sets are then compared. -/
theorem _root_.MZ.C73_opt_index_fails :
    ∃ (s : Arr (Option Int)) (d : Arr Int),
      s.lo = 0 ∧ s.hi = 0 ∧ d.lo = 0 ∧ d.hi = 0 ∧
      (∀ i ∈ s.idx, 0 ≤ d i) ∧
      (∀ bound upper lbM ubM, fznCumulativesOpt s d d d bound upper lbM ubM = none) ∧
      (∀ c lbB ubB, fznBinPackingOpt c s d lbB ubB = none) ∧
      (∀ load, fznBinPackingLoadOpt load s d = none) := by
  refine ⟨⟨0, 0, fun _ => some 1⟩, ⟨0, 0, fun _ => 1⟩, rfl, rfl, rfl, rfl, fun _ _ => by simp, ?_, ?_, ?_⟩
  · intro bound upper lbM ubM
    unfold fznCumulativesOpt cumulativesHelper
    rw [if_neg]
    rintro ⟨_, _, h, _⟩
    exact absurd h (by decide)
  · intro c lbB ubB
    unfold fznBinPackingOpt binPackingCapa
    rw [if_pos (by decide), if_neg]
    rintro ⟨h, _⟩
    simp [Arr.compr] at h
  · intro load
    unfold fznBinPackingLoadOpt
    rw [if_neg]
    rintro ⟨h, _⟩
    simp [Arr.compr] at h

/-- `diffn_nonstrict_k` holds exactly if no unit cell is covered by two boxes, in any number of dimensions;
`diffn_k` forbids in addition that a box of size 0 in some dimension lies strictly inside another one. -/
theorem _root_.MZ.C73_diffn_k (B D : Finset Int) (p w : Int → Int → Int) (hw : ∀ b ∈ B, ∀ j ∈ D, 0 ≤ w b j) :
    (fznDiffnNonstrictK B D p w ↔ NoOverlap B D p w) ∧ (fznDiffnK B D p w ↔ NoOverlapStrict B D p w) :=
  ⟨diffnNonstrictK_iff B D p w hw, diffnK_iff B D p w hw⟩

/-- `diffn_nonstrict` and `diffn` are the two-dimensional cases. -/
theorem _root_.MZ.C73_diffn (x y dx dy : Arr Int) (hx : ∀ i ∈ x.idx, 0 ≤ dx i ∧ 0 ≤ dy i) :
    (fznDiffnNonstrict x y dx dy ↔
      ∀ cx cy, ∀ i ∈ x.idx, ∀ j ∈ x.idx,
        (x i ≤ cx ∧ cx < x i + dx i) → (y i ≤ cy ∧ cy < y i + dy i) →
        (x j ≤ cx ∧ cx < x j + dx j) → (y j ≤ cy ∧ cy < y j + dy j) → i = j) ∧
    (fznDiffn x y dx dy ↔
      ∀ i ∈ x.idx, ∀ j ∈ x.idx, i ≠ j → ¬(Meets (x i) (dx i) (x j) (dx j) ∧ Meets (y i) (dy i) (y j) (dy j))) := by
  have hw : ∀ b ∈ x.idx, ∀ j ∈ ({1, 2} : Finset Int), 0 ≤ two dx dy b j := by
    intro b hb j _
    unfold two
    split
    · exact (hx b hb).1
    · exact (hx b hb).2
  constructor
  · rw [diffnNonstrict_eq, diffnNonstrictK_iff _ _ _ _ hw]
    unfold NoOverlap Covers two
    constructor
    · intro h cx cy i hi j hj h1 h2 h3 h4
      refine h (fun k => if k = 1 then cx else cy) i hi j hj ?_ ?_ <;>
        (intro k hk
         rw [Finset.mem_insert, Finset.mem_singleton] at hk
         rcases hk with rfl | rfl <;> simpa)
    · intro h c i hi j hj h1 h2
      have a1 := h1 1 (by decide)
      have a2 := h1 2 (by decide)
      have b1 := h2 1 (by decide)
      have b2 := h2 2 (by decide)
      simp at a1 a2 b1 b2
      exact h (c 1) (c 2) i hi j hj a1 a2 b1 b2
  · rw [diffn_eq, diffnK_iff _ _ _ _ hw]
    unfold NoOverlapStrict two
    simp

/-- `bin_packing` holds exactly if no bin is overfull, and its reified form gives that truth value. -/
theorem _root_.MZ.C73_bin_packing (capacity : Int) (bin weight : Arr Int) (lbB ubB : Int) (q : Prop)
    (hidx : weight.lo = bin.lo ∧ weight.hi = bin.hi) (hc : 0 ≤ capacity)
    (hb : ∀ i ∈ bin.idx, lbB ≤ bin i ∧ bin i ≤ ubB) :
    (fznBinPacking capacity bin weight lbB ubB ↔
      ∀ b, BinLoad bin.idx (fun i => some (bin i)) weight b ≤ capacity) ∧
    (fznBinPackingReif capacity bin weight lbB ubB q ↔
      (q ↔ ∀ b, BinLoad bin.idx (fun i => some (bin i)) weight b ≤ capacity)) := by
  have hi : weight.idx = bin.idx := by unfold Arr.idx; rw [hidx.1, hidx.2]
  exact ⟨fznBinPacking_iff capacity bin weight lbB ubB hi hc hb, fznBinPackingReif_iff capacity bin weight lbB ubB q hc hb⟩

/-- `bin_packing_capa` and `bin_packing_load`: every item is in an existing bin, and every bin has at most its capacity
(exactly its load). -/
theorem _root_.MZ.C73_bin_packing_capa_load (c bin weight : Arr Int)
    (hidx : weight.lo = bin.lo ∧ weight.hi = bin.hi) :
    (fznBinPackingCapa c bin weight ↔
      (∀ i ∈ bin.idx, bin i ∈ c.idx) ∧ ∀ b ∈ c.idx, BinLoad bin.idx (fun i => some (bin i)) weight b ≤ c b) ∧
    (fznBinPackingLoad c bin weight ↔
      (∀ i ∈ bin.idx, bin i ∈ c.idx) ∧ ∀ b ∈ c.idx, c b = BinLoad bin.idx (fun i => some (bin i)) weight b) := by
  have hi : weight.idx = bin.idx := by unfold Arr.idx; rw [hidx.1, hidx.2]
  exact ⟨fznBinPackingCapa_iff c bin weight, fznBinPackingLoad_iff c bin weight hi⟩

/-- The three packing constraints over optional items, for arrays indexed from 1, as long as no present item is in the bin
just after the last one: the absent items are in no bin. -/
theorem _root_.MZ.C73_bin_packing_opt_partial (capacity : Int) (c : Arr Int) (bin : Arr (Option Int)) (weight : Arr Int)
    (lbB ubB : Int) (hlo : bin.lo = 1) (hhi : 1 ≤ bin.hi) (hidx : weight.lo = 1 ∧ weight.hi = bin.hi)
    (hw : ∀ i ∈ bin.idx, 0 ≤ weight i) (hc : 0 ≤ capacity) (hcc : ∀ b ∈ c.idx, 0 ≤ c b) (hcn : c.lo ≤ c.hi + 1)
    (hb : ∀ i ∈ bin.idx, ∀ v, bin i = some v → lbB ≤ v ∧ v ≤ ubB) (hlu : lbB ≤ ubB)
    (hdummy : ∀ i ∈ bin.idx, bin i ≠ some (c.hi + 1)) :
    (∃ P, fznBinPackingOpt capacity bin weight lbB ubB = some P ∧
      (P ↔ ∀ b, BinLoad bin.idx bin weight b ≤ capacity)) ∧
    (∃ P, fznBinPackingCapaOpt c bin weight = some P ∧
      (P ↔ (∀ i ∈ bin.idx, ∀ v, bin i = some v → v ∈ c.idx) ∧ ∀ b ∈ c.idx, BinLoad bin.idx bin weight b ≤ c b)) ∧
    (∃ P, fznBinPackingLoadOpt c bin weight = some P ∧
      (P ↔ (∀ i ∈ bin.idx, ∀ v, bin i = some v → v ∈ c.idx) ∧ ∀ b ∈ c.idx, c b = BinLoad bin.idx bin weight b)) := by
  have hwi : weight.idx = bin.idx := by unfold Arr.idx; rw [hidx.1, hidx.2, hlo]
  have hcard : bin.idx.card > 0 := by
    apply Finset.card_pos.2
    exact ⟨1, (Arr.mem_idx _ _).2 (by omega)⟩
  -- the capacity version, for any range of bins
  have capa : ∀ (cc : Int → Int) (lo hi : Int), lo ≤ hi + 1 → (∀ b, lo ≤ b → b ≤ hi → 0 ≤ cc b) →
      ∃ P, binPackingCapa (Arr.ofFn lo (hi + 1) (fun b => if b < hi + 1 then cc b else ∑ i ∈ weight.idx, weight i))
          (bin.compr (fun b => b.getD (hi + 1))) weight = some P ∧
        (P ↔ (∀ i ∈ bin.idx, ∀ v, bin i = some v → lo ≤ v ∧ v ≤ hi ∨ v = hi + 1) ∧
          ∀ b, lo ≤ b → b ≤ hi → BinLoad bin.idx bin weight b ≤ cc b) := by
    intro cc lo hi hlh hcc'
    obtain ⟨c1, c2, c3⟩ := compr_one bin (fun b => b.getD (hi + 1)) hlo (by omega)
    generalize hA : (Arr.ofFn lo (hi + 1) (fun b => if b < hi + 1 then cc b else ∑ i ∈ weight.idx, weight i)) = A
    have hv : ∀ b, A.val b = if b < hi + 1 then cc b else ∑ i ∈ weight.idx, weight i := fun b => by rw [← hA]; rfl
    have hAlo : A.lo = lo := by rw [← hA]; rfl
    have hAhi : A.hi = hi + 1 := by rw [← hA]; rfl
    unfold binPackingCapa
    rw [if_pos ⟨by rw [c1, hidx.1], by rw [c2, hidx.2]⟩]
    have hnn : ∀ b ∈ A.idx, A b ≥ 0 := by
      intro b hb'
      rw [Arr.mem_idx] at hb'
      rw [hv]
      split
      · exact hcc' b (by omega) (by omega)
      · rw [hwi]; exact sum_nonneg' _ _ hw
    rw [if_pos hnn]
    refine ⟨_, rfl, ?_⟩
    have hbi : (bin.compr (fun b => b.getD (hi + 1))).idx = bin.idx := by unfold Arr.idx; rw [c1, c2, hlo]
    rw [fznBinPackingCapa_iff, hbi]
    simp only [c3, Arr.mem_idx, hv, hAlo, hAhi]
    constructor
    · rintro ⟨h1, h2⟩
      constructor
      · intro i hi' v hv
        have := h1 i hi'
        rw [hv] at this
        simp at this
        omega
      · intro b hb1 hb2
        have := h2 b ⟨hb1, by omega⟩
        rw [if_pos (by omega), binLoad_getD _ _ _ _ _ (by omega)] at this
        exact this
    · rintro ⟨h1, h2⟩
      constructor
      · intro i hi'
        cases hbi' : bin i with
        | none => simp; omega
        | some v =>
          have := h1 i hi' v hbi'
          show lo ≤ v ∧ v ≤ hi + 1
          omega
      · intro b hb'
        split
        · rw [binLoad_getD _ _ _ _ _ (by omega)]
          exact h2 b hb'.1 (by omega)
        · rw [hwi]; exact binLoad_le _ _ _ _ hw
  refine ⟨?_, ?_, ?_⟩
  · unfold fznBinPackingOpt
    rw [if_pos hcard]
    obtain ⟨P, hP, hiff⟩ := capa (fun _ => capacity) lbB ubB (by omega) (fun _ _ _ => hc)
    refine ⟨P, hP, hiff.trans ⟨fun h b => ?_, fun h => ⟨fun i hi v hv => Or.inl (hb i hi v hv), fun b _ _ => h b⟩⟩⟩
    by_cases hin : lbB ≤ b ∧ b ≤ ubB
    · exact h.2 b hin.1 hin.2
    · rw [binLoad_zero]
      · exact hc
      · intro i hi he
        exact hin (hb i hi b he)
  · unfold fznBinPackingCapaOpt
    rw [if_pos hcard]
    obtain ⟨P, hP, hiff⟩ := capa c c.lo c.hi hcn (fun b h1 h2 => hcc b ((Arr.mem_idx _ _).2 ⟨h1, h2⟩))
    refine ⟨P, hP, hiff.trans ⟨fun h => ⟨fun i hi v hv => ?_, fun b hb' => ?_⟩, fun h => ⟨fun i hi v hv => ?_, fun b h1 h2 => ?_⟩⟩⟩
    · rw [Arr.mem_idx]
      rcases h.1 i hi v hv with h' | h'
      · exact h'
      · exact absurd (h' ▸ hv) (hdummy i hi)
    · rw [Arr.mem_idx] at hb'
      exact h.2 b hb'.1 hb'.2
    · exact Or.inl ((Arr.mem_idx _ _).1 (h.1 i hi v hv))
    · exact h.2 b ((Arr.mem_idx _ _).2 ⟨h1, h2⟩)
  · obtain ⟨c1, c2, c3⟩ := compr_one bin (fun b => b.getD (c.hi + 1)) hlo (by omega)
    have hbi : (bin.compr (fun b => b.getD (c.hi + 1))).idx = bin.idx := by unfold Arr.idx; rw [c1, c2, hlo]
    unfold fznBinPackingLoadOpt
    rw [if_pos ⟨by rw [c1, hidx.1], by rw [c2, hidx.2]⟩]
    refine ⟨_, rfl, ?_⟩
    have step : ∀ dummy, fznBinPackingLoad (Arr.ofFn c.lo (c.hi + 1) (fun b => if b < c.hi + 1 then c b else dummy))
        (bin.compr (fun b => b.getD (c.hi + 1))) weight ↔
        (∀ i ∈ bin.idx, ∀ v, bin i = some v → v ∈ c.idx) ∧ (∀ b ∈ c.idx, c b = BinLoad bin.idx bin weight b) ∧
          dummy = BinLoad bin.idx (fun i => some ((bin i).getD (c.hi + 1))) weight (c.hi + 1) := by
      intro dummy
      generalize hA : (Arr.ofFn c.lo (c.hi + 1) (fun b => if b < c.hi + 1 then c b else dummy)) = A
      have hv : ∀ b, A.val b = if b < c.hi + 1 then c b else dummy := fun b => by rw [← hA]; rfl
      have hAlo : A.lo = c.lo := by rw [← hA]; rfl
      have hAhi : A.hi = c.hi + 1 := by rw [← hA]; rfl
      rw [fznBinPackingLoad_iff _ _ _ (hwi.trans hbi.symm), hbi]
      simp only [c3, Arr.mem_idx, hv, hAlo, hAhi]
      constructor
      · rintro ⟨h1, h2⟩
        refine ⟨fun i hi v hv => ?_, fun b hb' => ?_, ?_⟩
        · have e1 := h1 i hi
          have e2 := hdummy i ((Arr.mem_idx _ _).2 hi)
          rw [hv] at e1 e2
          simp at e1 e2
          omega
        · have := h2 b (by omega)
          rw [if_pos (by omega), binLoad_getD _ _ _ _ _ (by omega)] at this
          exact this
        · have := h2 (c.hi + 1) (by omega)
          rw [if_neg (by omega)] at this
          exact this
      · rintro ⟨h1, h2, h3⟩
        refine ⟨fun i hi' => ?_, fun b hb' => ?_⟩
        · cases hbi' : bin i with
          | none => simp; omega
          | some v =>
            have := h1 i hi' v hbi'
            show c.lo ≤ v ∧ v ≤ c.hi + 1
            omega
        · split
          · rw [binLoad_getD _ _ _ _ _ (by omega)]
            exact h2 b (by omega)
          · have : b = c.hi + 1 := by omega
            rw [this]; exact h3
    constructor
    · rintro ⟨dummy, _, _, h⟩
      have := (step dummy).1 h
      exact ⟨this.1, this.2.1⟩
    · rintro ⟨h1, h2⟩
      refine ⟨_, binLoad_nonneg _ _ _ _ hw, ?_, (step _).2 ⟨h1, h2, rfl⟩⟩
      rw [hwi]; exact binLoad_le _ _ _ _ hw

/-- A present item in the bin just after the last one is accepted as if it was absent, although the non-optional
constraint rejects it. -/
theorem _root_.MZ.C73_bin_packing_opt_dummy_fails :
    ∃ (c : Arr Int) (bin : Arr (Option Int)) (bin' weight : Arr Int),
      (∀ i, bin i = some (bin' i)) ∧ bin'.idx = bin.idx ∧
      (∃ P, fznBinPackingCapaOpt c bin weight = some P ∧ P) ∧ ¬fznBinPackingCapa c bin' weight ∧
      ¬(∀ i ∈ bin.idx, ∀ v, bin i = some v → v ∈ c.idx) := by
  refine ⟨⟨1, 2, fun _ => 5⟩, ⟨1, 1, fun _ => some 3⟩, ⟨1, 1, fun _ => 3⟩, ⟨1, 1, fun _ => 1⟩, fun _ => rfl, rfl, ?_, ?_, ?_⟩
  · refine ⟨fznBinPackingCapa (Arr.ofFn 1 3 (fun b => if b < 3 then 5 else 1)) ⟨1, 1, fun _ => 3⟩ ⟨1, 1, fun _ => 1⟩, ?_, ?_⟩
    · unfold fznBinPackingCapaOpt binPackingCapa
      rw [if_pos (by decide), if_pos (by decide), if_pos (by decide)]
      rfl
    · unfold fznBinPackingCapa
      decide
  · unfold fznBinPackingCapa
    decide
  · intro h
    exact absurd (h 1 (by decide) 3 rfl) (by decide)

/-! ## The hypotheses are satisfiable by non-trivial cases -/

/-- Three tasks on a resource of capacity 2, one of them of duration 0. -/
example : ∃ (s d r : Arr Int) (b : Int) (lbS ubS lbD ubD lbR ubR : Int → Int) (ubB mri : Int),
    (d.lo = s.lo ∧ d.hi = s.hi ∧ r.lo = s.lo ∧ r.hi = s.hi) ∧ Within s lbS ubS ∧ Within d lbD ubD ∧ Within r lbR ubR ∧
    b ≤ ubB ∧ (∀ i ∈ s.idx, 0 ≤ lbD i) ∧ (∀ i ∈ s.idx, 0 ≤ lbR i) ∧
    (s.idx.Nonempty → mri ∈ r.idx ∧ ∀ i ∈ r.idx, lbR mri ≤ lbR i) ∧ 0 ≤ b ∧ s.idx.card = 3 := by
  refine ⟨⟨0, 2, fun i => i⟩, ⟨0, 2, fun i => i⟩, ⟨0, 2, fun _ => 1⟩, 2, fun _ => 0, fun _ => 5, fun _ => 0, fun _ => 3,
    fun _ => 1, fun _ => 1, 4, 1, by decide, ?_, ?_, ?_, by decide, ?_, ?_, ?_, by decide, by decide⟩
  · intro i hi; rw [Arr.mem_idx] at hi; simp at hi ⊢; omega
  · intro i hi; rw [Arr.mem_idx] at hi; simp at hi ⊢; omega
  · intro i hi; simp
  · intro i hi; simp
  · intro i hi; simp
  · intro _; exact ⟨by decide, fun i _ => le_refl _⟩

/-- `cumulatives` over two machines with a negative resource. -/
example : ∃ (s d r m bound : Arr Int) (lbM ubM : Int → Int),
    (s.lo = d.lo ∧ s.hi = d.hi ∧ s.lo = r.lo ∧ s.hi = r.hi ∧ s.lo = m.lo ∧ s.hi = m.hi) ∧
    (∀ i ∈ s.idx, 0 ≤ d i) ∧ Within m lbM ubM ∧ (∀ i ∈ m.idx, bound.lo ≤ lbM i ∧ ubM i ≤ bound.hi) ∧
    ¬Cumulatives s.idx s d r m bound true ∧ Cumulatives s.idx s d r m bound false := by
  refine ⟨⟨1, 2, fun _ => 0⟩, ⟨1, 2, fun i => i⟩, ⟨1, 2, fun _ => 2⟩, ⟨1, 2, fun i => i⟩, ⟨1, 2, fun i => i⟩,
    fun _ => 1, fun _ => 2, by decide, ?_, ?_, ?_, ?_, ?_⟩
  · intro i hi; rw [Arr.mem_idx] at hi; simp at hi ⊢; omega
  · intro i hi; rw [Arr.mem_idx] at hi; simp at hi ⊢; omega
  · intro i hi; simp
  · intro h
    have := h 1 0 ⟨1, by decide, by decide, by decide, by decide⟩
    revert this
    decide
  · rintro k t ⟨i, hi, hm, hr⟩
    simp only [Bool.false_eq_true, if_false]
    have hs : ({i} : Finset Int) ⊆ (Arr.idx ⟨1, 2, fun _ => (0 : Int)⟩).filter (fun j => (fun i => i) j = k ∧
        Runs (fun _ => 0) (fun i => i) j t) := by
      intro j hj
      rw [Finset.mem_singleton] at hj
      subst hj
      exact Finset.mem_filter.2 ⟨hi, hm, hr⟩
    have := sum_mono' _ _ hs (fun _ => (2 : Int)) (fun _ _ => by decide)
    rw [Finset.sum_singleton] at this
    rw [Arr.mem_idx] at hi
    simp at hi hm
    show k ≤ _
    refine le_trans ?_ this
    omega

/-- Two boxes that touch, a box of size 0 on the border: accepted by both forms of `diffn`. -/
example : (∀ b ∈ ({1, 2, 3} : Finset Int), ∀ j ∈ ({1, 2} : Finset Int), (0 : Int) ≤ (if b = 3 then 0 else 2)) ∧
    fznDiffnK {1, 2, 3} {1, 2} (fun b j => if j = 1 then 2 * (b - 1) else 0) (fun b _ => if b = 3 then 0 else 2) := by
  refine ⟨by decide, ?_⟩
  unfold fznDiffnK
  decide

/-- The packing theorem for optional items, with an absent item. -/
example : ∃ (c : Arr Int) (bin : Arr (Option Int)) (weight : Arr Int),
    bin.lo = 1 ∧ 1 ≤ bin.hi ∧ weight.lo = 1 ∧ weight.hi = bin.hi ∧ (∀ i ∈ bin.idx, 0 ≤ weight i) ∧
    (∀ b ∈ c.idx, 0 ≤ c b) ∧ c.lo ≤ c.hi + 1 ∧ (∀ i ∈ bin.idx, bin i ≠ some (c.hi + 1)) ∧
    (∃ i ∈ bin.idx, bin i = none) ∧ (∃ i ∈ bin.idx, (bin i).isSome = true) := by
  refine ⟨⟨1, 2, fun _ => 3⟩, ⟨1, 2, fun i => if i = 1 then some 2 else none⟩, ⟨1, 2, fun _ => 3⟩, rfl, by decide, rfl, rfl,
    by decide, by decide, by decide, by decide, ⟨2, by decide, by decide⟩, ⟨1, by decide, by decide⟩⟩

end MZ.Sched
