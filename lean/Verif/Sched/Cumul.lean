import Verif.Sched.Model
import Verif.Sched.Spec

/-! # The decompositions of `cumulative` -/

namespace MZ.Sched
open MZ.Globals MZ.Sched.Spec

theorem sum_filter_mul (S : Finset Int) (P : Int → Prop) [DecidablePred P] (r : Int → Int) :
    (∑ i ∈ S, b2i (P i) * r i) = ∑ i ∈ S.filter P, r i := by
  rw [Finset.sum_filter]
  exact Finset.sum_congr rfl (fun i _ => b2i_mul _ _)

theorem sum_filter_mul' (S : Finset Int) (P : Int → Prop) [DecidablePred P] (r : Int → Int) :
    (∑ i ∈ S, r i * b2i (P i)) = ∑ i ∈ S.filter P, r i := by
  rw [Finset.sum_filter]
  exact Finset.sum_congr rfl (fun i _ => mul_b2i _ _)

/-- The sum over a subset that leaves out only items that do not count. -/
theorem sum_sub (I S : Finset Int) (hS : S ⊆ I) (P : Int → Prop) [DecidablePred P] (r : Int → Int)
    (h0 : ∀ i ∈ I, i ∉ S → P i → r i = 0) :
    (∑ i ∈ S.filter P, r i) = ∑ i ∈ I.filter P, r i := by
  apply Finset.sum_subset
  · exact Finset.filter_subset_filter _ hS
  · intro i hi hn
    simp only [Finset.mem_filter] at hi hn
    exact h0 i hi.1 (fun hs => hn ⟨hs, hi.2⟩) hi.2

theorem sum_nonneg' (S : Finset Int) (r : Int → Int) (h : ∀ i ∈ S, 0 ≤ r i) : 0 ≤ ∑ i ∈ S, r i :=
  Finset.sum_nonneg h

theorem sum_mono' (S T : Finset Int) (hST : S ⊆ T) (r : Int → Int) (h : ∀ i ∈ T, 0 ≤ r i) :
    ∑ i ∈ S, r i ≤ ∑ i ∈ T, r i :=
  Finset.sum_le_sum_of_subset_of_nonneg hST (fun i hi _ => h i hi)

section
variable {s d r : Arr Int} {b : Int} {lbS ubS ubD ubR : Int → Int}

theorem mem_tasks (i : Int) : i ∈ tasks s ubD ubR ↔ i ∈ s.idx ∧ ubR i > 0 ∧ ubD i > 0 := by
  simp [tasks]

theorem tasks_sub : tasks s ubD ubR ⊆ s.idx := Finset.filter_subset _ _

theorem not_task (hd : ∀ i ∈ s.idx, d i ≤ ubD i) (hr : ∀ i ∈ s.idx, 0 ≤ r i ∧ r i ≤ ubR i) (t : Int) :
    ∀ i ∈ s.idx, i ∉ tasks s ubD ubR → Runs s d i t → r i = 0 := by
  intro i hi hn hrun
  rw [mem_tasks] at hn
  have h1 := hd i hi
  have h2 := hr i hi
  unfold Runs at hrun
  by_contra hc
  exact hn ⟨hi, by omega, by omega⟩

theorem sum_tasks (hd : ∀ i ∈ s.idx, d i ≤ ubD i) (hr : ∀ i ∈ s.idx, 0 ≤ r i ∧ r i ≤ ubR i) (t : Int) :
    (∑ i ∈ tasks s ubD ubR, b2i (s i ≤ t ∧ t < s i + d i) * r i) =
      ∑ i ∈ s.idx.filter (fun i => Runs s d i t), r i := by
  rw [sum_filter_mul]
  exact sum_sub s.idx _ tasks_sub (fun i => Runs s d i t) r (not_task hd hr t)

theorem cumTime_iff (hs : ∀ i ∈ s.idx, lbS i ≤ s i ∧ s i ≤ ubS i) (hd : ∀ i ∈ s.idx, d i ≤ ubD i)
    (hr : ∀ i ∈ s.idx, 0 ≤ r i ∧ r i ≤ ubR i) (hne : (tasks s ubD ubR).Nonempty) :
    cumTime s d r b lbS ubS ubD ubR ↔ Cumulative s.idx s d r b := by
  unfold cumTime Cumulative
  simp only [sum_tasks hd hr, ge_iff_le, Finset.mem_Icc]
  constructor
  · intro h t
    by_cases ht : early s lbS ubD ubR ≤ t ∧ t ≤ late s ubS ubD ubR
    · exact h t ht
    · have hz : ∑ i ∈ s.idx.filter (fun i => Runs s d i t), r i = 0 := by
        rw [← sum_sub s.idx _ tasks_sub (fun i => Runs s d i t) r (not_task hd hr t)]
        apply Finset.sum_eq_zero
        intro i hi
        rw [Finset.mem_filter] at hi
        exfalso
        apply ht
        have hi1 := tasks_sub hi.1
        have e1 : early s lbS ubD ubR ≤ lbS i := minOf_le hi.1
        have e2 : ubS i + ubD i ≤ late s ubS ubD ubR := le_maxOf (f := fun i => ubS i + ubD i) hi.1
        have e3 := hs i hi1
        have e4 := hd i hi1
        have e5 := hi.2
        unfold Runs at e5
        omega
      obtain ⟨i, hi⟩ := hne
      have e1 : early s lbS ubD ubR ≤ lbS i := minOf_le hi
      have e2 : ubS i + ubD i ≤ late s ubS ubD ubR := le_maxOf (f := fun i => ubS i + ubD i) hi
      have e3 := hs i (tasks_sub hi)
      have e4 := (mem_tasks i).1 hi
      have := h (late s ubS ubD ubR) ⟨by omega, le_refl _⟩
      have hnn : 0 ≤ ∑ i ∈ s.idx.filter (fun i => Runs s d i (late s ubS ubD ubR)), r i :=
        sum_nonneg' _ _ (fun i hi => (hr i (Finset.mem_filter.1 hi).1).1)
      omega
  · intro h t _
    exact h t

theorem cumTask_iff (hd : ∀ i ∈ s.idx, d i ≤ ubD i)
    (hr : ∀ i ∈ s.idx, 0 ≤ r i ∧ r i ≤ ubR i) (hne : (tasks s ubD ubR).Nonempty) :
    cumTask s d r b ubD ubR ↔ Cumulative s.idx s d r b := by
  unfold cumTask Cumulative
  simp only [sum_tasks hd hr, ge_iff_le]
  constructor
  · intro h t
    rw [← sum_sub s.idx _ tasks_sub (fun i => Runs s d i t) r (not_task hd hr t)]
    by_cases hR : ((tasks s ubD ubR).filter (fun i => Runs s d i t)).Nonempty
    · obtain ⟨j, hj, hmax⟩ := Finset.exists_max_image _ (fun i => s i) hR
      rw [Finset.mem_filter] at hj
      refine le_trans ?_ (h j hj.1)
      apply sum_mono'
      · intro i hi
        have hm := hmax i hi
        rw [Finset.mem_filter] at hi ⊢
        refine ⟨tasks_sub hi.1, ?_⟩
        have e1 := hi.2
        have e2 := hj.2
        unfold Runs at e1 e2 ⊢
        omega
      · intro i hi
        exact (hr i (Finset.mem_filter.1 hi).1).1
    · rw [Finset.not_nonempty_iff_eq_empty] at hR
      rw [hR, Finset.sum_empty]
      obtain ⟨j, hj⟩ := hne
      exact le_trans (sum_nonneg' _ _ (fun i hi => (hr i (Finset.mem_filter.1 hi).1).1)) (h j hj)
  · intro h j _
    exact h (s j)

theorem none_iff (hd : ∀ i ∈ s.idx, d i ≤ ubD i) (hr : ∀ i ∈ s.idx, 0 ≤ r i ∧ r i ≤ ubR i)
    (h0 : 0 = (tasks s ubD ubR).card) : Cumulative s.idx s d r b ↔ b ≥ 0 := by
  have he : tasks s ubD ubR = ∅ := Finset.card_eq_zero.1 h0.symm
  have hz : ∀ t, ∑ i ∈ s.idx.filter (fun i => Runs s d i t), r i = 0 := by
    intro t
    rw [← sum_sub s.idx _ tasks_sub (fun i => Runs s d i t) r (not_task hd hr t), he]
    rfl
  unfold Cumulative
  simp only [hz]
  exact ⟨fun h => h 0, fun h _ => h⟩

theorem fznCumulative_iff (hs : ∀ i ∈ s.idx, lbS i ≤ s i ∧ s i ≤ ubS i) (hd : ∀ i ∈ s.idx, d i ≤ ubD i)
    (hr : ∀ i ∈ s.idx, 0 ≤ r i ∧ r i ≤ ubR i) :
    fznCumulative s d r b lbS ubS ubD ubR ↔ (s.idx = ∅ ∨ Cumulative s.idx s d r b) := by
  unfold fznCumulative
  split
  · rename_i h0
    rw [none_iff hd hr h0]
    constructor
    · rintro (h | h)
      · exact Or.inl (Finset.card_eq_zero.1 h.symm)
      · exact Or.inr h
    · rintro (h | h)
      · exact Or.inl (by rw [h]; rfl)
      · exact Or.inr h
  · rename_i h0
    have hne : (tasks s ubD ubR).Nonempty := by
      rw [← Finset.card_pos]; omega
    have hne2 : s.idx ≠ ∅ := by
      intro h
      obtain ⟨i, hi⟩ := hne
      have := tasks_sub hi
      rw [h] at this
      simp at this
    split
    · rw [cumTask_iff hd hr hne]; simp [hne2]
    · rw [cumTime_iff hs hd hr hne]; simp [hne2]

end

/-! ## disjunctive -/

theorem fznDisjunctive_iff (s d : Arr Int) (hd : ∀ i ∈ d.idx, 0 ≤ d i) :
    fznDisjunctive s d ↔ Disjunctive d.idx s d := by
  unfold fznDisjunctive Disjunctive Runs
  constructor
  · rintro ⟨_, h⟩ t i hi j hj r1 r2
    by_contra hc
    rcases lt_or_gt_of_ne hc with hlt | hlt
    · rcases h i hi j hj hlt with h | h | h | h <;> omega
    · rcases h j hj i hi hlt with h | h | h | h <;> omega
  · intro h
    refine ⟨hd, fun i hi j hj hlt => ?_⟩
    by_contra hc
    push Not at hc
    have h1 := hd i hi
    have h2 := hd j hj
    rcases le_total (s i) (s j) with hle | hle
    · have := h (s j) i hi j hj (by omega) (by omega)
      omega
    · have := h (s i) i hi j hj (by omega) (by omega)
      omega

theorem fznDisjunctiveStrict_iff (s d : Arr Int) (hd : ∀ i ∈ d.idx, 0 ≤ d i) :
    fznDisjunctiveStrict s d ↔ DisjunctiveStrict d.idx s d := by
  unfold fznDisjunctiveStrict DisjunctiveStrict Disjunctive Runs
  constructor
  · rintro ⟨_, h⟩
    refine ⟨fun t i hi j hj r1 r2 => ?_, fun i hi j hj h0 => ?_⟩
    · by_contra hc
      rcases lt_or_gt_of_ne hc with hlt | hlt
      · rcases h i hi j hj hlt with h | h <;> omega
      · rcases h j hj i hi hlt with h | h <;> omega
    · rintro ⟨h1, h2⟩
      rcases lt_trichotomy i j with hlt | heq | hlt
      · rcases h i hi j hj hlt with h | h <;> omega
      · subst heq; omega
      · rcases h j hj i hi hlt with h | h <;> omega
  · rintro ⟨h, hz⟩
    refine ⟨hd, fun i hi j hj hlt => ?_⟩
    by_contra hc
    push Not at hc
    have h1 := hd i hi
    have h2 := hd j hj
    have z1 := hz i hi j hj
    have z2 := hz j hj i hi
    by_cases e1 : d i = 0
    · exact z2 e1 (by omega)
    · by_cases e2 : d j = 0
      · exact z1 e2 (by omega)
      · rcases le_total (s i) (s j) with hle | hle
        · have := h (s j) i hi j hj (by omega) (by omega)
          omega
        · have := h (s i) i hi j hj (by omega) (by omega)
          omega

end MZ.Sched
