import Verif.LinGlob.Basic
import Verif.Sched.Cumul

/-! # Lemmas: the cumulative constraint of the linear library -/

namespace MZ.LinGlob

open MZ.Globals MZ.LinLib MZ.LinArith MZ.Sched MZ.Sched.Spec

variable (s d r : Arr V) (b : V)

theorem tasks_eq : tasks s d r = Sched.tasks (vals s) (fun i => (d i).ub) (fun i => (r i).ub) := rfl

theorem dur_le : ∀ i ∈ (vals s).idx, (vals d) i ≤ (d i).ub := fun i _ => (d i).le_ub

variable {s d r b}

theorem req_le (hr : ∀ i ∈ s.idx, 0 ≤ (r i).val) : ∀ i ∈ (vals s).idx, 0 ≤ (vals r) i ∧ (vals r) i ≤ (r i).ub :=
  fun i hi => ⟨hr i hi, (r i).le_ub⟩

theorem runs_fixed (i t : Int) :
    (if (d i).fixed then b2i ((s i).val ∈ Finset.Icc (t - (d i).fix + 1) t)
      else b2i ((s i).val ≤ t ∧ t < (s i).val + (d i).val)) = b2i ((vals s) i ≤ t ∧ t < (vals s) i + (vals d) i) := by
  show _ = b2i ((s i).val ≤ t ∧ t < (s i).val + (d i).val)
  split_ifs with h
  · congr 1
    rw [V.fix_eq h, Finset.mem_Icc]
    exact propext (by omega)
  · rfl

theorem timeDecomp_iff (hr : ∀ i ∈ s.idx, 0 ≤ (r i).val) (hd : ∀ i ∈ s.idx, 0 ≤ (d i).val) (hne : (tasks s d r).Nonempty) :
    cumTimeDecomp s d r b (taskTimes s d r) ↔ Cumulative s.idx (vals s) (vals d) (vals r) b.val := by
  unfold cumTimeDecomp
  simp only [runs_fixed]
  constructor
  · intro h
    have h1 : Sched.cumTask (vals s) (vals d) (vals r) b.val (fun i => (d i).ub) (fun i => (r i).ub) := by
      intro j hj
      have hj' : j ∈ tasks s d r := hj
      apply h ((s j).val)
      have hp := (Finset.mem_filter.1 hj').2.2
      rw [Finset.mem_filter, Finset.mem_Icc]
      refine ⟨⟨?_, ?_⟩, Finset.mem_biUnion.2 ⟨j, hj', (s j).mem⟩⟩
      · exact (minOf_le (f := fun i => (s i).lb) hj').trans (s j).lb_le
      · refine le_trans ?_ (le_maxOf (f := fun i => (s i).ub + (d i).ub) hj')
        have := (s j).le_ub
        omega
    exact (cumTask_iff (dur_le s d) (req_le hr) hne).1 h1
  · intro h t _
    have := sum_tasks (dur_le s d) (req_le hr) t
    rw [tasks_eq]
    show b.val ≥ ∑ i ∈ _, b2i ((vals s) i ≤ t ∧ t < (vals s) i + (vals d) i) * (vals r) i
    rw [this]
    exact h t

theorem taskDecomp_iff (j : Int) (hj : j ∈ tasks s d r) :
    ∑ i ∈ (tasks s d r).filter (fun i => i ≠ j ∧ (s i).lb ≤ (s j).ub ∧ (s j).lb < (s i).ub + (d i).ub),
      (r i).val * b2i ((s i).val ≤ (s j).val ∧ (s j).val < (s i).val + (d i).val) + (r j).val * b2i (0 < (d j).val) =
    ∑ i ∈ Sched.tasks (vals s) (fun i => (d i).ub) (fun i => (r i).ub),
      b2i ((vals s) i ≤ (vals s) j ∧ (vals s) j < (vals s) i + (vals d) i) * (vals r) i := by
  rw [← tasks_eq]
  have hsub : (tasks s d r).filter (fun i => i ≠ j ∧ (s i).lb ≤ (s j).ub ∧ (s j).lb < (s i).ub + (d i).ub) ⊆
      (tasks s d r).erase j := by
    intro i hi
    rw [Finset.mem_filter] at hi
    exact Finset.mem_erase.2 ⟨hi.2.1, hi.1⟩
  rw [Finset.sum_subset hsub (by
    intro i hi hn
    rw [Finset.mem_erase] at hi
    rw [b2i_false, mul_zero]
    rintro ⟨h1, h2⟩
    apply hn
    rw [Finset.mem_filter]
    have := (s i).lb_le
    have := (s j).lb_le
    have := (s i).le_ub
    have := (s j).le_ub
    have := (d i).le_ub
    exact ⟨hi.2, hi.1, by omega, by omega⟩)]
  rw [← Finset.sum_erase_add _ _ hj]
  congr 1
  · exact Finset.sum_congr rfl fun i _ => mul_comm _ _
  · rw [mul_comm]
    congr 1
    show _ = b2i ((s j).val ≤ (s j).val ∧ (s j).val < (s j).val + (d j).val)
    congr 1
    exact propext (by omega)

theorem taskDecomp_sound (hr : ∀ i ∈ s.idx, 0 ≤ (r i).val) (hne : (tasks s d r).Nonempty) (h : cumTaskDecomp s d r b) :
    Cumulative s.idx (vals s) (vals d) (vals r) b.val := by
  refine (cumTask_iff (dur_le s d) (req_le hr) hne).1 ?_
  intro j hj
  have h1 := h j hj
  have h2 := taskDecomp_iff j hj
  have h3 := hr j (Finset.mem_filter.1 hj).1
  have h4 : (r j).val * b2i (0 < (d j).val) ≤ (r j).val := by
    unfold b2i; split_ifs <;> simp [h3]
  omega

theorem taskDecomp_complete (hr : ∀ i ∈ s.idx, 0 ≤ (r i).val) (hd : ∀ i ∈ s.idx, 0 < (d i).val)
    (h : Cumulative s.idx (vals s) (vals d) (vals r) b.val) : cumTaskDecomp s d r b := by
  intro j hj
  have h1 := (cumTask_iff (dur_le s d) (req_le hr) ⟨j, hj⟩).2 h j hj
  have h2 := taskDecomp_iff j hj
  rw [b2i_true (hd j (Finset.mem_filter.1 hj).1)] at h2
  show b.val - (r j).val ≥ _
  omega

end MZ.LinGlob
