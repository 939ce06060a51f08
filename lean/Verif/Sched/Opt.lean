import Verif.Sched.Cumul

/-! # `cumulative` in its reified and optional forms, and `cumulatives` -/

namespace MZ.Sched
open MZ.Globals MZ.Sched.Spec

theorem task_form (T : Finset Int) (s d r : Int → Int) (j : Int) (hj : j ∈ T) (hd : 0 < d j) :
    (r j + ∑ i ∈ T.filter (fun i => i ≠ j), b2i (s i ≤ s j ∧ s j < s i + d i) * r i) =
      ∑ i ∈ T.filter (fun i => Runs s d i (s j)), r i := by
  have h1 : (∑ i ∈ T.filter (fun i => i ≠ j), b2i (s i ≤ s j ∧ s j < s i + d i) * r i) =
      ∑ i ∈ T.erase j, b2i (Runs s d i (s j)) * r i := by
    rw [Finset.filter_ne']
    rfl
  have h2 : r j = b2i (Runs s d j (s j)) * r j := by
    rw [b2i_true (by unfold Runs; omega), one_mul]
  rw [h1]
  conv_lhs => rw [h2]
  rw [Finset.add_sum_erase _ (fun i => b2i (Runs s d i (s j)) * r i) hj]
  exact sum_filter_mul T (fun i => Runs s d i (s j)) r

/-- At the start of each task against at every time. -/
theorem core_task (I T : Finset Int) (hT : T ⊆ I) (s d r : Int → Int) (b : Int)
    (h0 : ∀ t, ∀ i ∈ I, i ∉ T → Runs s d i t → r i = 0) (hr : ∀ i ∈ I, 0 ≤ r i) (hb : T.Nonempty ∨ 0 ≤ b) :
    (∀ j ∈ T, ∑ i ∈ T.filter (fun i => Runs s d i (s j)), r i ≤ b) ↔ Cumulative I s d r b := by
  unfold Cumulative
  constructor
  · intro h t
    rw [← sum_sub I T hT (fun i => Runs s d i t) r (h0 t)]
    by_cases hR : (T.filter (fun i => Runs s d i t)).Nonempty
    · obtain ⟨j, hj, hmax⟩ := Finset.exists_max_image _ (fun i => s i) hR
      rw [Finset.mem_filter] at hj
      refine le_trans ?_ (h j hj.1)
      apply sum_mono'
      · intro i hi
        have hm := hmax i hi
        rw [Finset.mem_filter] at hi ⊢
        refine ⟨hi.1, ?_⟩
        have e1 := hi.2
        have e2 := hj.2
        unfold Runs at e1 e2 ⊢
        omega
      · intro i hi
        exact hr i (hT (Finset.mem_filter.1 hi).1)
    · rw [Finset.not_nonempty_iff_eq_empty] at hR
      rw [hR, Finset.sum_empty]
      rcases hb with ⟨j, hj⟩ | hb
      · exact le_trans (sum_nonneg' _ _ (fun i hi => hr i (hT (Finset.mem_filter.1 hi).1))) (h j hj)
      · exact hb
  · intro h j _
    rw [sum_sub I T hT (fun i => Runs s d i (s j)) r (h0 (s j))]
    exact h (s j)

/-- At every time of the horizon against at every time. -/
theorem core_time (I T : Finset Int) (hT : T ⊆ I) (s d r : Int → Int) (b e l : Int)
    (h0 : ∀ t, ∀ i ∈ I, i ∉ T → Runs s d i t → r i = 0) (hr : ∀ i ∈ I, 0 ≤ r i) (hel : e ≤ l)
    (hb : ∀ i ∈ T, e ≤ s i ∧ s i + d i ≤ l) :
    (∀ t ∈ Finset.Icc e l, ∑ i ∈ T.filter (fun i => Runs s d i t), r i ≤ b) ↔ Cumulative I s d r b := by
  unfold Cumulative
  simp only [Finset.mem_Icc]
  constructor
  · intro h t
    rw [← sum_sub I T hT (fun i => Runs s d i t) r (h0 t)]
    by_cases ht : e ≤ t ∧ t ≤ l
    · exact h t ht
    · have hz : ∑ i ∈ T.filter (fun i => Runs s d i t), r i = 0 := by
        apply Finset.sum_eq_zero
        intro i hi
        rw [Finset.mem_filter] at hi
        exfalso
        apply ht
        have e3 := hb i hi.1
        have e5 := hi.2
        unfold Runs at e5
        omega
      have := h l ⟨hel, le_refl _⟩
      have hnn : 0 ≤ ∑ i ∈ T.filter (fun i => Runs s d i l), r i :=
        sum_nonneg' _ _ (fun i hi => hr i (hT (Finset.mem_filter.1 hi).1))
      omega
  · intro h t _
    rw [sum_sub I T hT (fun i => Runs s d i t) r (h0 t)]
    exact h t

section
variable {s : Arr (Option Int)} {d r : Arr Int} {b : Int} {ubO : Int → Bool} {lbS ubS ubD ubR : Int → Int}

/-- The tasks that are present. -/
def present (s : Arr (Option Int)) : Finset Int := s.idx.filter (fun i => (s i).isSome = true)

/-- The start times, read where they are present. -/
def starts (s : Arr (Option Int)) : Int → Int := fun i => deopt (s i)

theorem mem_tasksOpt (i : Int) :
    i ∈ tasksOpt s ubO ubD ubR ↔ i ∈ s.idx ∧ ubO i = true ∧ ubR i > 0 ∧ ubD i > 0 := by
  simp [tasksOpt]

/-- The present tasks among those that can use the resource. -/
def pTasks (s : Arr (Option Int)) (ubO : Int → Bool) (ubD ubR : Int → Int) : Finset Int :=
  (tasksOpt s ubO ubD ubR).filter (fun i => (s i).isSome = true)

theorem pTasks_sub : pTasks s ubO ubD ubR ⊆ present s := by
  intro i hi
  simp only [pTasks, present, Finset.mem_filter, mem_tasksOpt] at hi ⊢
  exact ⟨hi.1.1, hi.2⟩

theorem not_pTask (hO : ∀ i ∈ s.idx, (s i).isSome = true → ubO i = true)
    (hd : ∀ i ∈ s.idx, d i ≤ ubD i) (hr : ∀ i ∈ s.idx, 0 ≤ r i ∧ r i ≤ ubR i) (t : Int) :
    ∀ i ∈ present s, i ∉ pTasks s ubO ubD ubR → Runs (starts s) d i t → r i = 0 := by
  intro i hi hn hrun
  simp only [pTasks, present, Finset.mem_filter, mem_tasksOpt] at hi hn
  have h1 := hd i hi.1
  have h2 := hr i hi.1
  unfold Runs at hrun
  by_contra hc
  exact hn ⟨⟨hi.1, hO i hi.1 hi.2, by omega, by omega⟩, hi.2⟩

theorem sum_opt (t : Int) :
    (∑ i ∈ tasksOpt s ubO ubD ubR, b2i ((s i).isSome = true ∧ deopt (s i) ≤ t ∧ t < deopt (s i) + d i) * r i) =
      ∑ i ∈ (pTasks s ubO ubD ubR).filter (fun i => Runs (starts s) d i t), r i := by
  rw [sum_filter_mul, pTasks, Finset.filter_filter]
  rfl

theorem sum_opt_ne (j : Int) (hj : j ∈ pTasks s ubO ubD ubR) (hd : 0 < d j) :
    (r j + ∑ i ∈ (tasksOpt s ubO ubD ubR).filter (fun i => i ≠ j),
      b2i ((s i).isSome = true ∧ deopt (s i) ≤ deopt (s j) ∧ deopt (s j) < deopt (s i) + d i) * r i) =
      ∑ i ∈ (pTasks s ubO ubD ubR).filter (fun i => Runs (starts s) d i (starts s j)), r i := by
  rw [← task_form (pTasks s ubO ubD ubR) (starts s) d r j hj hd]
  congr 1
  rw [sum_filter_mul, sum_filter_mul, pTasks]
  congr 1
  ext i
  simp only [Finset.mem_filter]
  unfold starts
  tauto

end

/-! ## cumulatives -/

theorem load_eq (s d r m : Arr Int) (a k : Int) :
    load s d r m a k = ∑ i ∈ s.idx.filter (fun i => m i = k ∧ Runs s d i a), r i := by
  unfold load
  rw [sum_filter_mul']
  congr 1
  ext i
  simp only [Finset.mem_filter]
  unfold taskAt Runs
  constructor
  · rintro ⟨h1, h2, h3, h4⟩; exact ⟨h1, h4, h2, h3⟩
  · rintro ⟨h1, h4, h2, h3⟩; exact ⟨h1, h2, h3, h4⟩

theorem cov_iff (s d m : Arr Int) (a k : Int) :
    cov s d m a k ↔ ∃ i ∈ s.idx, m i = k ∧ Runs s d i a := by
  unfold cov taskAt Runs
  constructor
  · rintro ⟨i, hi, h1, h2, h3⟩; exact ⟨i, hi, h3, h1, h2⟩
  · rintro ⟨i, hi, h3, h1, h2⟩; exact ⟨i, hi, h1, h2, h3⟩

/-- The set of tasks running on a machine changes only at starts and ends: for each time with a task running there is
a start or an end of a task of that machine with the same running tasks. -/
theorem event (s d m : Arr Int) (hd : ∀ i ∈ s.idx, 0 ≤ d i) (k t : Int)
    (h : ∃ i ∈ s.idx, m i = k ∧ Runs s d i t) :
    ∃ j ∈ s.idx, m j = k ∧ ∃ a, (a = s j ∨ a = s j + d j) ∧
      ∀ i ∈ s.idx, m i = k → (Runs s d i t ↔ Runs s d i a) := by
  -- the events of the machine up to `t`
  let ev : Finset Int :=
    ((s.idx.filter (fun i => m i = k)).image (fun i => s i) ∪
      (s.idx.filter (fun i => m i = k)).image (fun i => s i + d i)).filter (fun a => a ≤ t)
  obtain ⟨i0, hi0, hm0, hr0⟩ := h
  have hne : ev.Nonempty := by
    refine ⟨s i0, ?_⟩
    simp only [ev, Finset.mem_filter, Finset.mem_union, Finset.mem_image]
    exact ⟨Or.inl ⟨i0, ⟨hi0, hm0⟩, rfl⟩, hr0.1⟩
  obtain ⟨a, ha, hmax⟩ := Finset.exists_max_image ev id hne
  simp only [ev, Finset.mem_filter, Finset.mem_union, Finset.mem_image] at ha
  have hmem : ∀ i ∈ s.idx, m i = k → (s i ≤ t → s i ≤ a) ∧ (s i + d i ≤ t → s i + d i ≤ a) := by
    intro i hi hm
    constructor
    · intro hle
      refine hmax (s i) ?_
      simp only [ev, Finset.mem_filter, Finset.mem_union, Finset.mem_image]
      exact ⟨Or.inl ⟨i, ⟨hi, hm⟩, rfl⟩, hle⟩
    · intro hle
      refine hmax (s i + d i) ?_
      simp only [ev, Finset.mem_filter, Finset.mem_union, Finset.mem_image]
      exact ⟨Or.inr ⟨i, ⟨hi, hm⟩, rfl⟩, hle⟩
  have hrun : ∀ i ∈ s.idx, m i = k → (Runs s d i t ↔ Runs s d i a) := by
    intro i hi hm
    have := hmem i hi hm
    unfold Runs
    omega
  rcases ha with ⟨⟨j, ⟨hj, hmj⟩, he⟩ | ⟨j, ⟨hj, hmj⟩, he⟩, _⟩
  · exact ⟨j, hj, hmj, a, Or.inl he.symm, hrun⟩
  · exact ⟨j, hj, hmj, a, Or.inr he.symm, hrun⟩

theorem fznCumulatives_iff (s d r m bound : Arr Int) (upper : Bool) (hd : ∀ i ∈ s.idx, 0 ≤ d i)
    (hm : ∀ i ∈ s.idx, m i ∈ bound.idx) :
    fznCumulatives s d r m bound upper ↔ Cumulatives s.idx s d r m bound upper := by
  unfold fznCumulatives Cumulatives
  simp only [load_eq, cov_iff]
  constructor
  · intro h k t hcov
    obtain ⟨j, hj, hmj, a, ha, hrun⟩ := event s d m hd k t hcov
    have hfil : s.idx.filter (fun i => m i = k ∧ Runs s d i t) = s.idx.filter (fun i => m i = k ∧ Runs s d i a) := by
      apply Finset.filter_congr
      intro i hi
      constructor
      · rintro ⟨h1, h2⟩; exact ⟨h1, (hrun i hi h1).1 h2⟩
      · rintro ⟨h1, h2⟩; exact ⟨h1, (hrun i hi h1).2 h2⟩
    have hcov' : ∃ i ∈ s.idx, m i = k ∧ Runs s d i a := by
      obtain ⟨i, hi, h1, h2⟩ := hcov
      exact ⟨i, hi, h1, (hrun i hi h1).1 h2⟩
    rw [hfil]
    obtain ⟨q1, q2, q3, q4⟩ := h j hj
    subst hmj
    cases upper
    · rcases ha with rfl | rfl
      · exact (q3 ⟨rfl, hcov'⟩).2
      · exact (q4 ⟨rfl, hcov'⟩).2
    · rcases ha with rfl | rfl
      · exact (q1 ⟨rfl, hcov'⟩).2
      · exact (q2 ⟨rfl, hcov'⟩).2
  · intro h j hj
    refine ⟨?_, ?_, ?_, ?_⟩ <;> rintro ⟨hu, hc⟩ <;> refine ⟨hm j hj, ?_⟩
    · have := h (m j) (s j) hc; rw [hu] at this; exact this
    · have := h (m j) (s j + d j) hc; rw [hu] at this; exact this
    · have := h (m j) (s j) hc; rw [hu] at this; exact this
    · have := h (m j) (s j + d j) hc; rw [hu] at this; exact this

end MZ.Sched
