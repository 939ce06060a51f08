import Verif.Linear.Total
import Verif.Domain.Props
import Mathlib.Data.List.Sort
/-!
# C12, C13: normalisation of linear expressions and constraints
-/
namespace MZ
open Linear Domain

theorem Linear.SortedIdx.lt {ts idx} (h : SortedIdx ts idx) : ∀ i ∈ idx, i < ts.length := by
  intro i hi; have := h.perm.mem_iff.1 hi; simpa using this

theorem Linear.SortedIdx.nodup {ts idx} (h : SortedIdx ts idx) : idx.Nodup :=
  h.perm.nodup_iff.2 List.nodup_range

/-- Simplification preserves the value of the linear expression under every assignment. -/
theorem C12_value (idx : List Nat) (ts ts' : List (Int × Atom)) (d d' : Int)
    (hs : SortedIdx ts idx) (h : simplifyLinIdx idx ts d = .ok (ts', d')) (ρ : Atom → Int) :
    sum ρ ts' + d' = sum ρ ts + d := by
  unfold simplifyLinIdx at h
  rw [Res.bind_eq_ok] at h
  obtain ⟨⟨c1, d1, rest⟩, h1, h2⟩ := h
  have hv := foldLits_value ts.length _ ρ _ _ _ _ hs.lt h1
  rw [init_sum] at hv
  rw [← hv.1]
  cases rest with
  | nil =>
    simp only [Res.ok.injEq, Prod.mk.injEq] at h2
    obtain ⟨rfl, rfl⟩ := h2
    rw [compact_sum]
  | cons cur is =>
    rw [Res.bind_eq_ok] at h2
    obtain ⟨⟨c2, d2⟩, h3, h4⟩ := h2
    simp only [Res.ok.injEq, Prod.mk.injEq] at h4
    obtain ⟨rfl, rfl⟩ := h4
    have hsuf : (cur :: is) <:+ idx := hv.2
    rw [compact_sum]
    exact merge_value ts.length _ ρ _ _ _ _ _ (fun i hi => hs.lt i (hsuf.subset hi))
      (hs.nodup.sublist hsuf.sublist) h3

theorem Linear.pairwise_or {α : Type} {R : α → α → Prop} {l : List α} (h : l.Pairwise R) {a b : α}
    (ha : a ∈ l) (hb : b ∈ l) (hne : a ≠ b) : R a b ∨ R b a := by
  induction l with
  | nil => simp at ha
  | cons x l ih =>
    rw [List.pairwise_cons] at h
    rw [List.mem_cons] at ha hb
    rcases ha with rfl | ha <;> rcases hb with rfl | hb
    · exact absurd rfl hne
    · exact Or.inl (h.1 b hb)
    · exact Or.inr (h.1 a ha)
    · exact ih h.2 ha hb

/-- The result has no constant operand, no zero coefficient, and no operand twice. -/
theorem C12_normal (idx : List Nat) (ts ts' : List (Int × Atom)) (d d' : Int)
    (hs : SortedIdx ts idx) (h : simplifyLinIdx idx ts d = .ok (ts', d')) :
    (∀ t ∈ ts', t.1 ≠ 0) ∧ (∀ t ∈ ts', ∀ v, t.2 ≠ .lit v) ∧ (ts'.map Prod.snd).Nodup := by
  unfold simplifyLinIdx at h
  rw [Res.bind_eq_ok] at h
  obtain ⟨⟨c1, d1, rest⟩, h1, h2⟩ := h
  have hsh := foldLits_shape _ _ _ _ _ hs.nodup h1
  have hsuf := (foldLits_value ts.length _ (fun _ => 0) _ _ _ _ hs.lt h1).2
  dsimp only at hsuf
  have hmem : ∀ i, i < ts.length → i ∈ idx := fun i hi => hs.perm.mem_iff.2 (by simpa using hi)
  cases rest with
  | nil =>
    simp only [Res.ok.injEq, Prod.mk.injEq] at h2
    obtain ⟨rfl, rfl⟩ := h2
    have : compact ts.length (fun i => (ts.getD i (0, Atom.lit 0)).2) c1 = [] := by
      unfold compact
      rw [List.map_eq_nil_iff, List.filter_eq_nil_iff]
      intro i hi
      have := hsh.2.1 i (hmem i (by simpa using hi)) (by simp)
      simp_all
    rw [this]; simp
  | cons cur is =>
    rw [Res.bind_eq_ok] at h2
    obtain ⟨⟨c2, d2⟩, h3, h4⟩ := h2
    simp only [Res.ok.injEq, Prod.mk.injEq] at h4
    obtain ⟨rfl, rfl⟩ := h4
    have hnd := hs.nodup.sublist hsuf.sublist
    obtain ⟨a1, a2, a3⟩ := merge_shape _ is cur c1 d1 _ hnd (hsh.2.2 cur is rfl)
      (hs.sorted.sublist hsuf.sublist) h3
    -- an index with a non-zero coefficient is in the rest
    have hin : ∀ i, i < ts.length → c2 i ≠ 0 → i ∈ cur :: is := by
      intro i hi h0
      by_contra hc
      apply h0
      rw [show c2 i = c1 i from a1 i hc]
      exact hsh.2.1 i (hmem i hi) hc
    refine ⟨?_, ?_, ?_⟩
    · intro t ht
      simp only [compact, List.mem_map, List.mem_filter] at ht
      obtain ⟨i, ⟨_, h0⟩, rfl⟩ := ht
      simpa using h0
    · intro t ht
      simp only [compact, List.mem_map, List.mem_filter, List.mem_range] at ht
      obtain ⟨i, ⟨hi, h0⟩, rfl⟩ := ht
      have h0 : c2 i ≠ 0 := by simpa using h0
      exact a2 i (hin i hi h0) h0
    · unfold compact
      rw [List.map_map, List.nodup_map_iff_inj_on (List.nodup_range.filter _)]
      intro i hi j hj heq
      simp only [List.mem_filter, List.mem_range, decide_eq_true_eq] at hi hj
      by_contra hne
      have hi' := hin i hi.1 hi.2
      have hj' := hin j hj.1 hj.2
      -- pairwise is symmetric here
      have hp : (cur :: is).Pairwise (fun i j => c2 i ≠ 0 → c2 j ≠ 0 →
          (ts.getD i (0, Atom.lit 0)).2 ≠ (ts.getD j (0, Atom.lit 0)).2) := a3
      rcases pairwise_or hp hi' hj' hne with h | h
      · exact h hi.2 hj.2 heq
      · exact h hj.2 hi.2 heq.symm

/-- No error is raised when the coefficients (weighted by the literals they multiply) and the
constant are small in total. -/
theorem C12_no_error (idx : List Nat) (ts : List (Int × Atom)) (d : Int) (hs : SortedIdx ts idx)
    (hl : ∀ t ∈ ts, ∀ v, t.2 = .lit v → |v| ≤ LMAX)
    (hb : |d| + (ts.map (fun t => |t.1| * weight t.2)).sum ≤ LMAX) :
    ∃ r, simplifyLinIdx idx ts d = .ok r := by
  have hB : B ts.length (fun i => (ts.getD i (0, Atom.lit 0)).2)
      (fun i => (ts.getD i (0, Atom.lit 0)).1) d ≤ LMAX := by
    unfold B
    have : ∀ l : List (Int × Atom), T l.length (fun i => weight (l.getD i (0, Atom.lit 0)).2)
        (fun i => |(l.getD i (0, Atom.lit 0)).1|) = (l.map (fun t => |t.1| * weight t.2)).sum := by
      intro l
      unfold T
      induction l with
      | nil => simp
      | cons t l ih =>
        rw [List.length_cons, Finset.sum_range_succ', List.map_cons, List.sum_cons, add_comm]
        simp only [List.getD_cons_succ, List.getD_cons_zero]
        rw [ih]
    rw [this]; exact hb
  have hlit : ∀ i v, (ts.getD i (0, Atom.lit 0)).2 = .lit v → |v| ≤ LMAX := by
    intro i v hv
    by_cases hi : i < ts.length
    · rw [List.getD_eq_getElem?_getD, List.getElem?_eq_getElem hi] at hv
      exact hl _ (List.getElem_mem hi) v hv
    · rw [List.getD_eq_getElem?_getD, List.getElem?_eq_none (by omega)] at hv
      injection hv with hv; subst hv; decide
  obtain ⟨⟨c1, d1, rest⟩, h1, h2⟩ := foldLits_total ts.length _ hlit idx _ d hs.lt hB
  have hsuf := (foldLits_value ts.length _ (fun _ => 0) _ _ _ _ hs.lt h1).2
  unfold simplifyLinIdx
  dsimp only
  rw [h1, Res.ok_bind]
  cases rest with
  | nil => exact ⟨_, rfl⟩
  | cons cur is =>
    obtain ⟨r, h3⟩ := merge_total ts.length _ hlit is cur c1 d1
      (fun i hi => hs.lt i (hsuf.subset hi)) (hs.nodup.sublist hsuf.sublist) h2
    dsimp only
    rw [h3]
    exact ⟨_, rfl⟩

/-- A sorted index vector exists for every term list. -/
theorem Linear.sortIdx_sorted (ts : List (Int × Atom)) : SortedIdx ts (sortIdx ts) := by
  constructor
  · exact List.mergeSort_perm _ _
  · have := List.pairwise_mergeSort
      (le := fun i j => !cmpExpIdx (ts.getD j (0, .lit 0)).2 (ts.getD i (0, .lit 0)).2)
      (by intro a b c h1 h2
          simp only [Bool.not_eq_true'] at *
          exact cmp_trans h1 h2)
      (by intro a b
          simp only [Bool.or_eq_true, Bool.not_eq_true']
          generalize (ts.getD b (0, .lit 0)).2 = u
          generalize (ts.getD a (0, .lit 0)).2 = w
          cases u <;> cases w <;> simp [cmpExpIdx] <;> omega)
      (List.range ts.length)
    exact this.imp (fun h => by simpa using h)

/-- `3x + 2y + 4·5 - 3x + 2y + 1` becomes `4y + 21`. -/
example : simplifyLinIdx [0, 3, 1, 4, 2] [(3, .id 1), (2, .id 7), (4, .lit 5), (-3, .id 1), (2, .id 7)] 1 =
    .ok ([(4, .id 7)], 21) := by decide

example : SortedIdx [(3, .id 1), (2, .id 7), (4, .lit 5), (-3, .id 1), (2, .id 7)] [0, 3, 1, 4, 2] :=
  ⟨by decide, by decide⟩

theorem Linear.scale_sum (sign : Int) (ρ : Atom → Int) :
    ∀ ts ts', scale sign ts = .ok ts' → sum ρ ts' = sign * sum ρ ts := by
  intro ts
  induction ts with
  | nil => intro ts' h; simp only [scale, Res.ok.injEq] at h; subst h; simp [sum]
  | cons t ts ih =>
    intro ts' h
    obtain ⟨c, x⟩ := t
    rw [scale, Res.bind_eq_ok] at h
    obtain ⟨c', h1, h⟩ := h
    rw [Res.bind_eq_ok] at h
    obtain ⟨us, h2, h⟩ := h
    simp only [Res.ok.injEq] at h; subst h
    have h3 := ih us h2
    unfold sum at *
    simp only [List.map_cons, List.sum_cons]
    rw [h3, (safeMult_ok h1).1]; ring

theorem Linear.scale_atoms (sign : Int) :
    ∀ ts ts', scale sign ts = .ok ts' → ts'.map Prod.snd = ts.map Prod.snd := by
  intro ts
  induction ts with
  | nil => intro ts' h; simp only [scale, Res.ok.injEq] at h; subst h; rfl
  | cons t ts ih =>
    intro ts' h
    obtain ⟨c, x⟩ := t
    rw [scale, Res.bind_eq_ok] at h
    obtain ⟨c', h1, h⟩ := h
    rw [Res.bind_eq_ok] at h
    obtain ⟨us, h2, h⟩ := h
    simp only [Res.ok.injEq] at h; subst h
    simp [ih us h2]

/-- The builtin posted for `Σ c·x + d bot 0` has exactly the same solutions, for each of the six
comparison operators. -/
theorem C13_builtin (bot : Cmp) (ts ts' : List (Int × Atom)) (d k : Int) (op : LinOp)
    (h : buildLin bot ts d = .ok (op, ts', k)) (ρ : Atom → Int) :
    op.holds ρ ts' k ↔ bot.holds (sum ρ ts + d) 0 := by
  unfold buildLin at h
  rw [Res.bind_eq_ok] at h
  obtain ⟨⟨op', sign, d'⟩, h1, h⟩ := h
  rw [Res.bind_eq_ok] at h
  obtain ⟨us, h2, h⟩ := h
  rw [Res.bind_eq_ok] at h
  obtain ⟨k', h3, h⟩ := h
  simp only [Res.ok.injEq, Prod.mk.injEq] at h
  obtain ⟨rfl, rfl, rfl⟩ := h
  have hs := scale_sum sign ρ _ _ h2
  have hk := (safeMinus_ok h3).1
  cases bot <;> simp only [constructLinBuiltin, Res.bind_eq_ok, Res.ok.injEq, Prod.mk.injEq] at h1
  · obtain ⟨e, he, rfl, rfl, rfl⟩ := h1
    have := (safePlus_ok he).1
    simp only [LinOp.holds, Cmp.holds, hs, hk]; omega
  · obtain ⟨rfl, rfl, rfl⟩ := h1
    simp only [LinOp.holds, Cmp.holds, hs, hk]; omega
  · obtain ⟨m, hm, e, he, rfl, rfl, rfl⟩ := h1
    have := (safePlus_ok he).1
    have := (safeMinus_ok hm).1
    simp only [LinOp.holds, Cmp.holds, hs, hk]; omega
  · obtain ⟨m, hm, rfl, rfl, rfl⟩ := h1
    have := (safeMinus_ok hm).1
    simp only [LinOp.holds, Cmp.holds, hs, hk]; omega
  · obtain ⟨rfl, rfl, rfl⟩ := h1
    simp only [LinOp.holds, Cmp.holds, hs, hk]; omega
  · obtain ⟨rfl, rfl, rfl⟩ := h1
    simp only [LinOp.holds, Cmp.holds, hs, hk]; omega

example : buildLin .gr [(2, .id 0), (-3, .id 1)] 5 = .ok (.le, [(-2, .id 0), (3, .id 1)], 4) := by
  decide

end MZ
