import Verif.LinGlob.Basic
import Verif.Graph.CircuitLemmas

/-! # Lemmas: circuits of the linear library -/

namespace MZ.LinGlob

open MZ.Globals MZ.LinLib MZ.LinArith MZ.Graph MZ.Graph.Spec

variable (o : Opts)

/-- Following a successor function whose numbers increase, except into one node, leads from anywhere to anywhere. -/
theorem circ_of_rank {S : Finset Int} {f order : Int → Int} {l n : Int} (h : ∀ i ∈ S, f i ∈ S)
    (hinj : ∀ i ∈ S, ∀ j ∈ S, f i = f j → i = j) (hl : l ∈ S) (hn : ∀ i ∈ S, i ≠ l → order i ≤ n)
    (ho : ∀ i ∈ S, i ≠ l → f i ≠ l → order i + 1 ≤ order (f i)) :
    ∀ i ∈ S, ∀ j ∈ S, ∃ k : Nat, f^[k] i = j := by
  classical
  have reach : ∀ m : Nat, ∀ i ∈ S, i ≠ l → (n - order i).toNat = m → ∃ k : Nat, f^[k] i = l := by
    intro m
    induction m using Nat.strong_induction_on with
    | _ m ih =>
      intro i hi hil hm
      by_cases hf : f i = l
      · exact ⟨1, hf⟩
      · have h1 := ho i hi hil hf
        have h2 := hn _ (h i hi) hf
        obtain ⟨k, hk⟩ := ih (n - order (f i)).toNat (by omega) (f i) (h i hi) hf rfl
        exact ⟨k + 1, hk⟩
  have reach' : ∀ i ∈ S, ∃ k : Nat, f^[k] i = l := by
    intro i hi
    by_cases hil : i = l
    · exact ⟨0, hil⟩
    · exact reach _ i hi hil rfl
  have back : ∀ j ∈ S, ∃ k : Nat, f^[k] l = j := by
    let R := S.filter fun j => ∃ k : Nat, f^[k] l = j
    have hR : ∀ i ∈ R, f i ∈ R := by
      intro i hi
      obtain ⟨h1, k, hk⟩ := Finset.mem_filter.1 hi
      exact Finset.mem_filter.2 ⟨h i h1, k + 1, by rw [Function.iterate_succ_apply', hk]⟩
    have hsurj := surj_of_inj hR fun i hi j hj => hinj i (Finset.mem_filter.1 hi).1 j (Finset.mem_filter.1 hj).1
    have key : ∀ k : Nat, ∀ j ∈ S, f^[k] j = l → j ∈ R := by
      intro k
      induction k with
      | zero => intro j hj e; exact Finset.mem_filter.2 ⟨hj, 0, by simpa using e.symm⟩
      | succ k ih =>
        intro j hj e
        obtain ⟨r, hr, e1⟩ := hsurj _ (ih (f j) (h j hj) e)
        rw [← hinj r (Finset.mem_filter.1 hr).1 j hj e1]
        exact hr
    intro j hj
    obtain ⟨k, hk⟩ := reach' j hj
    exact (Finset.mem_filter.1 (key k j hj hk)).2
  intro i hi j hj
  obtain ⟨k, hk⟩ := reach' i hi
  obtain ⟨m, hm⟩ := back j hj
  exact ⟨m + k, by rw [Function.iterate_add_apply, hk, hm]⟩

theorem inj_of_alldiff {xs : Arr V} (h : allDifferent o xs) :
    ∀ i ∈ xs.idx, ∀ j ∈ xs.idx, (vals xs).val i = (vals xs).val j → i = j :=
  (allDifferent_iff o xs).1 h

theorem idx_iff (xs : Arr V) (hx : xs.len ≠ 0) : xs.lo ≤ xs.hi ∧ xs.len = xs.hi - xs.lo + 1 ∧
    Finset.Icc (xs.lo + 1) (xs.lo + xs.len - 1) = xs.idx.erase xs.lo := by
  have h1 := LexOrd.len_eq_length xs
  have h2 := LexOrd.length_elems xs
  have h3 : xs.lo ≤ xs.hi := by by_contra hc; omega
  refine ⟨h3, by omega, ?_⟩
  ext i
  rw [Finset.mem_Icc, Finset.mem_erase, Arr.mem_idx]
  omega

theorem selfMapped_val {xs : Arr V} (h : ∀ i ∈ xs.idx, (xs i).val ∈ xs.idx \ {i}) (i : Int) :
    ((selfMapped xs h) i).val = (xs i).val := by
  show ((selfMapped xs h).val i).val = _
  unfold selfMapped
  dsimp only
  split_ifs <;> rfl

theorem selfMapped_idx {xs : Arr V} (h : ∀ i ∈ xs.idx, (xs i).val ∈ xs.idx \ {i}) : (selfMapped xs h).idx = xs.idx := rfl

theorem vals_selfMapped {xs : Arr V} (h : ∀ i ∈ xs.idx, (xs i).val ∈ xs.idx \ {i}) : vals (selfMapped xs h) = vals xs := by
  have : (fun i => ((selfMapped xs h) i).val) = fun i => (xs i).val := funext (selfMapped_val h)
  unfold vals
  rw [this]
  rfl

theorem selfMapped_dom {xs : Arr V} (h : ∀ i ∈ xs.idx, (xs i).val ∈ xs.idx \ {i}) {i : Int} (hi : i ∈ xs.idx) :
    ((selfMapped xs h) i).dom ⊆ xs.idx \ {i} := by
  show ((selfMapped xs h).val i).dom ⊆ _
  unfold selfMapped
  dsimp only
  rw [dif_pos hi]
  exact Finset.inter_subset_right

theorem circuit_sound (sec : Int) (cuts : Arr Int → Prop) (hcuts : ∀ f, cuts f → Circuit f) (xs : Arr V)
    (h : circuit o sec cuts xs) : xs.len ≠ 1 ∧ Circuit (vals xs) := by
  unfold circuit at h
  by_cases h0 : xs.len = 0
  · have : xs.idx = ∅ := by
      have := h0; unfold Arr.len at this; exact Finset.card_eq_zero.1 (by omega)
    refine ⟨by omega, ?_⟩
    constructor <;> rw [vals_idx, this] <;> simp
  rw [if_neg h0] at h
  obtain ⟨hself, hall, hcut, hord, -⟩ := h
  obtain ⟨hlo, hlen, hicc⟩ := idx_iff xs h0
  have hl : xs.lo ∈ xs.idx := by rw [Arr.mem_idx]; omega
  have hmap : ∀ i ∈ xs.idx, (vals xs) i ∈ xs.idx := fun i hi => (Finset.mem_sdiff.1 (hself i hi)).1
  have hne : ∀ i ∈ xs.idx, (vals xs) i ≠ i := fun i hi => by
    have := (Finset.mem_sdiff.1 (hself i hi)).2
    exact fun e => this (Finset.mem_singleton.2 e)
  refine ⟨?_, ?_⟩
  · intro h1
    have a := hmap _ hl
    have b := hne _ hl
    rw [Arr.mem_idx] at a
    omega
  by_cases hs : sec < 2
  · rw [if_pos hs] at hord
    obtain ⟨order, hr, ho⟩ := hord
    refine ⟨hmap, ?_⟩
    have hinj := inj_of_alldiff o hall
    rw [vals_selfMapped, selfMapped_idx] at hinj
    rw [hicc] at hr ho
    refine circ_of_rank (order := order) (n := xs.len) hmap hinj hl ?_ ?_
    · intro i hi hil
      exact (Finset.mem_Icc.1 (hr i (Finset.mem_erase.2 ⟨hil, hi⟩))).2
    · intro i hi hil hfl
      have hfm := hmap i hi
      have e : ((selfMapped xs hself) i).val = (vals xs) i := selfMapped_val hself i
      have := ho i (Finset.mem_erase.2 ⟨hil, hi⟩) ((vals xs) i) (Finset.mem_erase.2 ⟨hfl, hfm⟩) (hne i hi).symm
        (by have := ((selfMapped xs hself) i).mem; rw [e] at this; exact this)
      rw [b2i_true e] at this
      have hn3 : 3 ≤ xs.len := by
        by_contra hc
        have h3 := hne i hi
        have h4 := (Arr.mem_idx xs i).1 hi
        have h5 := (Arr.mem_idx xs _).1 hfm
        omega
      have hb : 0 ≤ (xs.len - 3) * b2i (((selfMapped xs hself) ((vals xs) i)).val = i) :=
        mul_nonneg (by omega) (b2i_nonneg _)
      show order i + 1 ≤ order ((vals xs) i)
      omega
  · rw [if_pos (by omega)] at hcut
    have := hcut.2.2
    rw [vals_selfMapped] at this
    exact hcuts _ this

theorem circuit_complete (sec : Int) (cuts : Arr Int → Prop) (hcuts : ∀ f, Circuit f → cuts f) (xs : Arr V)
    (h1 : xs.len ≠ 1) (h : Circuit (vals xs)) : circuit o sec cuts xs := by
  unfold circuit
  by_cases h0 : xs.len = 0
  · rw [if_pos h0]; trivial
  rw [if_neg h0]
  obtain ⟨hlo, hlen, hicc⟩ := idx_iff xs h0
  have hl : xs.lo ∈ xs.idx := by rw [Arr.mem_idx]; omega
  have hmap : ∀ i ∈ xs.idx, (vals xs).val i ∈ xs.idx := h.1
  have hreach : ∀ i ∈ xs.idx, ∀ j ∈ xs.idx, ∃ k : Nat, (vals xs).val^[k] i = j := h.2
  have hsurj : ∀ j ∈ xs.idx, ∃ i ∈ xs.idx, (vals xs).val i = j := by
    intro j hj
    obtain ⟨k, hk⟩ := hreach _ (hmap j hj) j hj
    refine ⟨(vals xs).val^[k] j, iterate_mem hmap k j hj, ?_⟩
    rw [← Function.iterate_succ_apply' (vals xs).val k j, Function.iterate_succ_apply, hk]
  have hinj := inj_of_surj hmap hsurj
  -- a closed subset that is not empty is everything
  have closed : ∀ T : Finset Int, ∀ i ∈ xs.idx, i ∈ T → (∀ j ∈ T, (vals xs).val j ∈ T) → xs.idx ⊆ T := by
    intro T i hi hiT hT j hj
    obtain ⟨k, rfl⟩ := hreach i hi j hj
    exact iterate_mem hT k i hiT
  have hcard : xs.len = (xs.idx.card : Int) := rfl
  have hne : ∀ i ∈ xs.idx, (vals xs).val i ≠ i := by
    intro i hi e
    have := Finset.card_le_card (closed {i} i hi (by simp) (by simp [e]))
    rw [Finset.card_singleton] at this
    omega
  have hself : ∀ i ∈ xs.idx, (xs i).val ∈ xs.idx \ {i} := fun i hi =>
    Finset.mem_sdiff.2 ⟨hmap i hi, fun e => hne i hi (Finset.mem_singleton.1 e)⟩
  have hv : ∀ i, ((selfMapped xs hself) i).val = (vals xs).val i := selfMapped_val hself
  have hnb : (xs.idx).Nonempty := ⟨_, hl⟩
  refine ⟨hself, ?_, ?_, ?_, ?_⟩
  · rw [allDifferent_iff, vals_selfMapped]
    exact hinj
  · split_ifs with hs
    · rw [selfMapped_idx, vals_selfMapped]
      refine ⟨?_, ?_, hcuts _ h⟩
      · apply le_antisymm
        · obtain ⟨i, hi, e⟩ := minOf_mem (f := fun i => ((selfMapped xs hself) i).lb) hnb
          rw [e]
          have := selfMapped_dom hself hi ((selfMapped xs hself) i).lb_mem
          exact ((Arr.mem_idx _ _).1 (Finset.mem_sdiff.1 this).1).1
        · obtain ⟨i, hi, e⟩ := hsurj _ hl
          refine (minOf_le (f := fun i => ((selfMapped xs hself) i).lb) hi).trans ?_
          rw [← e, ← hv]
          exact V.lb_le _
      · apply le_antisymm
        · obtain ⟨i, hi, e⟩ := hsurj xs.hi (by rw [Arr.mem_idx]; omega)
          refine le_trans ?_ (le_maxOf (f := fun i => ((selfMapped xs hself) i).ub) hi)
          rw [← e, ← hv]
          exact V.le_ub _
        · obtain ⟨i, hi, e⟩ := maxOf_mem (f := fun i => ((selfMapped xs hself) i).ub) hnb
          rw [e]
          have := selfMapped_dom hself hi ((selfMapped xs hself) i).ub_mem
          exact ((Arr.mem_idx _ _).1 (Finset.mem_sdiff.1 this).1).2
  · split_ifs with hs
    · obtain ⟨dist, d0, d1, d2, d3, -⟩ := numbering hl hmap (hreach _ hl) hinj
      have hd : ∀ i ∈ xs.idx, i ≠ xs.lo → 1 ≤ dist i := by
        intro i hi hil
        by_contra hc
        exact hil (d2 i hi _ hl (by omega))
      refine ⟨fun i => dist i + 1, ?_, ?_⟩
      · intro i hi
        rw [hicc, Finset.mem_erase] at hi
        have := d1 i hi.2
        have := hd i hi.2 hi.1
        rw [Finset.mem_Icc]
        dsimp only
        omega
      · intro i hi j hj hij _
        rw [hicc, Finset.mem_erase] at hi hj
        have a1 := d1 i hi.2
        have a2 := hd i hi.2 hi.1
        have b1 := d1 j hj.2
        have b2 := hd j hj.2 hj.1
        rw [hv, hv]
        dsimp only
        by_cases e1 : (vals xs).val i = j
        · have c1 := d3 i hi.2 (by rw [e1]; exact hj.1)
          rw [e1] at c1
          rw [b2i_true e1]
          by_cases e2 : (vals xs).val j = i
          · have c2 := d3 j hj.2 (by rw [e2]; exact hi.1)
            rw [e2] at c2
            omega
          · rw [b2i_false e2]; omega
        · rw [b2i_false e1]
          by_cases e2 : (vals xs).val j = i
          · have c2 := d3 j hj.2 (by rw [e2]; exact hi.1)
            rw [e2] at c2
            rw [b2i_true e2]; omega
          · rw [b2i_false e2]; omega
  · split_ifs with hn
    · intro i hi j hj hij
      rw [selfMapped_idx] at hi hj
      rw [hv, hv]
      by_contra hc
      push Not at hc
      have := Finset.card_le_card (closed {i, j} i hi (by simp) (by simp [hc.1, hc.2]))
      have h2 := Finset.card_le_two (a := i) (b := j)
      omega

theorem subcircuit_sound (xs : Arr V) (hin : ∀ i ∈ xs.idx, (xs i).val ∈ xs.idx) (h : subcircuit o xs) :
    Subcircuit (vals xs) := by
  classical
  refine ⟨hin, ?_⟩
  rw [vals_idx]
  unfold subcircuit at h
  by_cases h0 : xs.len = 0
  · have : xs.idx = ∅ := by
      have := h0; unfold Arr.len at this; exact Finset.card_eq_zero.1 (by omega)
    rw [this]; simp
  rw [if_neg h0] at h
  obtain ⟨order, lastin, hr, hf, hl, hall, hemp, hful⟩ := h
  have hinj := inj_of_alldiff o hall
  intro i hi j hj hni hnj
  by_cases he : (minOf xs.idx fun i => xs.hi + 1 + b2i (vals xs i ≠ i) * (i - xs.hi - 1)) = xs.hi + 1
  · exact absurd (hemp.1 he i hi) (by simpa using hni)
  obtain ⟨-, -, -, hll, -, hm⟩ := hful.1 he
  set M := xs.idx.filter fun i => (vals xs).val i ≠ i with hM
  have mM : ∀ i, i ∈ M ↔ i ∈ xs.idx ∧ (vals xs).val i ≠ i := fun i => by rw [hM, Finset.mem_filter]
  have hmap : ∀ i ∈ M, (vals xs).val i ∈ M := by
    intro i hi
    rw [mM] at hi ⊢
    exact ⟨hin i hi.1, fun e => hi.2 (hinj _ (hin i hi.1) _ hi.1 e)⟩
  have hM' := circ_of_rank (S := M) (f := (vals xs).val) (order := order) (l := lastin) (n := xs.len) hmap
    (fun i hi j hj => hinj i ((mM i).1 hi).1 j ((mM j).1 hj).1) ((mM _).2 ⟨hl, hll⟩)
    (fun i hi _ => (hr i ((mM i).1 hi).1).2) (by
      intro i hi hil _
      have h1 := (mM i).1 hi
      have := hm i h1.1 _ (hin i h1.1) (fun e => h1.2 e.symm)
      rw [b2i_true ⟨rfl, hil⟩] at this
      show order i + 1 ≤ order (xs i).val
      omega)
  obtain ⟨k, hk⟩ := hM' _ (hmap i ((mM i).2 ⟨hi, hni⟩)) j ((mM j).2 ⟨hj, hnj⟩)
  exact ⟨k, hk⟩

theorem subcircuit_complete (xs : Arr V) (h : Subcircuit (vals xs)) : subcircuit o xs := by
  have h := (subcircuit_iff _).2 h
  unfold fznSubcircuit at h
  unfold subcircuit
  by_cases h0 : xs.len = 0
  · rw [if_pos h0]; trivial
  rw [if_neg h0]
  rw [if_neg (show (vals xs).len ≠ 0 from h0)] at h
  obtain ⟨order, lastin, hr, hf, hl, hall, -, hemp, hful⟩ := h
  have hinj := ne_of_pairs hall
  dsimp only
  refine ⟨order, lastin, hr, hf, hl, (allDifferent_iff o xs).2 hinj, ?_, ?_⟩
  · constructor
    · intro e
      exact hemp (by rw [show (minOf (vals xs).idx fun i => (vals xs).hi + 1 + b2i (vals xs i ≠ i) * (i - (vals xs).hi - 1)) = _ from e]; exact Int.lt_succ _)
    · intro e
      by_contra hc
      have := (hful (by
        intro hgt
        apply hc
        have h2 := hf.2
        exact le_antisymm h2 hgt)).2.2.2.2.1
      exact e _ this.1 this.2
  · constructor
    · intro e
      obtain ⟨a, b, c, d, f, g, -⟩ := hful (by
        intro hgt
        apply e
        have h2 := hf.2
        exact le_antisymm h2 hgt)
      refine ⟨a, b, c, d, f, ?_⟩
      intro i hi j hj hij
      have ri := hr i hi
      have rj := hr j hj
      have hlen : (vals xs).len = xs.len := rfl
      by_cases hc : (vals xs) i = j ∧ i ≠ lastin
      · rw [b2i_true hc]
        have : (vals xs) i ≠ minOf (vals xs).idx fun i => (vals xs).hi + 1 + b2i (vals xs i ≠ i) * (i - (vals xs).hi - 1) := by
          rw [← c]
          intro e2
          exact hc.2 (hinj i hi lastin hl e2)
        have := (g i hi ⟨by rw [hc.1]; exact hij.symm, this⟩).2
        rw [hc.1] at this
        omega
      · rw [b2i_false hc]; omega
    · rintro ⟨⟨a, -⟩, -⟩ e
      have := (Arr.mem_idx _ _).1 a
      have : (minOf xs.idx fun i => xs.hi + 1 + b2i (vals xs i ≠ i) * (i - xs.hi - 1)) ≤ xs.hi := this.2
      omega

end MZ.LinGlob
