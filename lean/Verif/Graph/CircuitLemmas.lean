import Verif.Graph.Reach

/-! # Circuits -/

namespace MZ.Graph
open MZ.Globals MZ.Graph.Spec

theorem ne_of_pairs {S : Finset Int} {f : Int → Int} (h : ∀ i ∈ S, ∀ j ∈ S, i < j → f i ≠ f j) :
    ∀ i ∈ S, ∀ j ∈ S, f i = f j → i = j := by
  intro i hi j hj hij
  rcases lt_trichotomy i j with h1 | h1 | h1
  · exact absurd hij (h i hi j hj h1)
  · exact h1
  · exact absurd hij.symm (h j hj i hi h1)

theorem iterate_mem {S : Finset Int} {f : Int → Int} (h : ∀ i ∈ S, f i ∈ S) (k : Nat) :
    ∀ i ∈ S, f^[k] i ∈ S := by
  induction k with
  | zero => intro i hi; exact hi
  | succ k ih => intro i hi; rw [Function.iterate_succ_apply']; exact h _ (ih i hi)

theorem reach_iterate {S : Finset Int} {f : Int → Int} (h : ∀ i ∈ S, f i ∈ S) {i : Int} (hi : i ∈ S) (k : Nat) :
    Relation.ReflTransGen (fun a b => (a ∈ S ∧ b ∈ S) ∧ b = f a) i (f^[k] i) := by
  induction k with
  | zero => exact .refl
  | succ k ih =>
    rw [Function.iterate_succ_apply']
    have := iterate_mem h k i hi
    exact ih.tail ⟨⟨this, h _ this⟩, rfl⟩

theorem inj_of_surj {S : Finset Int} {f : Int → Int} (h : ∀ i ∈ S, f i ∈ S) (hs : ∀ j ∈ S, ∃ i ∈ S, f i = j) :
    ∀ i ∈ S, ∀ j ∈ S, f i = f j → i = j := by
  have himg : S.image f = S := by
    ext j
    rw [Finset.mem_image]
    exact ⟨fun ⟨i, hi, he⟩ => he ▸ h i hi, fun hj => hs j hj⟩
  have := Finset.card_image_iff.mp (congrArg Finset.card himg)
  intro i hi j hj hij
  exact this (Finset.mem_coe.mpr hi) (Finset.mem_coe.mpr hj) hij

theorem surj_of_inj {S : Finset Int} {f : Int → Int} (h : ∀ i ∈ S, f i ∈ S)
    (hi : ∀ i ∈ S, ∀ j ∈ S, f i = f j → i = j) : ∀ j ∈ S, ∃ i ∈ S, f i = j := by
  have hsub : S.image f ⊆ S := by
    intro j hj
    obtain ⟨i, hi, rfl⟩ := Finset.mem_image.mp hj
    exact h i hi
  have hc : (S.image f).card = S.card := Finset.card_image_iff.mpr fun i h1 j h2 h3 =>
    hi i (Finset.mem_coe.mp h1) j (Finset.mem_coe.mp h2) h3
  have := Finset.eq_of_subset_of_card_le hsub hc.ge
  intro j hj
  rw [← this] at hj
  exact Finset.mem_image.mp hj

/-- Numbering a cycle from one of its elements. -/
theorem numbering {S : Finset Int} {f : Int → Int} {l : Int} (hl : l ∈ S) (h : ∀ i ∈ S, f i ∈ S)
    (hreach : ∀ j ∈ S, ∃ k : Nat, f^[k] l = j) (hinj : ∀ i ∈ S, ∀ j ∈ S, f i = f j → i = j) :
    ∃ dist : Int → Nat, dist l = 0 ∧ (∀ i ∈ S, dist i + 1 ≤ S.card) ∧
      (∀ i ∈ S, ∀ j ∈ S, dist i = dist j → i = j) ∧ (∀ i ∈ S, f i ≠ l → dist (f i) = dist i + 1) ∧
      ∀ j ∈ S, j ≠ l → ∃ i ∈ S, f i = j ∧ dist j = dist i + 1 := by
  obtain ⟨dist, par, h0, hp, hb⟩ := bfs (V := S) (R := fun a b => (a ∈ S ∧ b ∈ S) ∧ b = f a) hl
    (fun a b hab => hab.1) (fun n hn => by
      obtain ⟨k, hk⟩ := hreach n hn
      rw [← hk]
      exact reach_iterate h hl k)
  refine ⟨dist, h0, hb, ?_, ?_, ?_⟩
  · have key : ∀ k : Nat, ∀ i ∈ S, ∀ j ∈ S, dist i = k → dist j = k → i = j := by
      intro k
      induction k with
      | zero =>
        intro i hi j hj h1 h2
        have hz : ∀ m ∈ S, dist m = 0 → m = l := by
          intro m hm hm0
          by_contra hne
          have := (hp m hm hne).2
          omega
        rw [hz i hi h1, hz j hj h2]
      | succ k ih =>
        intro i hi j hj h1 h2
        have hz : ∀ m ∈ S, dist m = k + 1 → m ≠ l := by
          rintro m hm hm0 rfl
          omega
        obtain ⟨⟨⟨a1, -⟩, a2⟩, a3⟩ := hp i hi (hz i hi h1)
        obtain ⟨⟨⟨b1, -⟩, b2⟩, b3⟩ := hp j hj (hz j hj h2)
        rw [a2, b2, ih _ a1 _ b1 (by omega) (by omega)]
    intro i hi j hj hij
    exact key _ i hi j hj rfl hij.symm
  · intro i hi hne
    obtain ⟨⟨⟨a1, -⟩, a2⟩, a3⟩ := hp (f i) (h i hi) hne
    rw [a3, ← hinj _ hi _ a1 a2]
  · intro j hj hne
    obtain ⟨⟨⟨a1, -⟩, a2⟩, a3⟩ := hp j hj hne
    exact ⟨_, a1, a2.symm, a3⟩

theorem circuit_iff (xs : Arr Int) (h1 : xs.len ≠ 1) : fznCircuit xs ↔ Circuit xs := by
  unfold fznCircuit
  by_cases h0 : xs.len = 0
  · rw [if_pos h0]
    have : xs.idx = ∅ := by
      unfold Arr.len at h0
      exact Finset.card_eq_zero.mp (by omega)
    refine ⟨fun _ => ?_, fun _ => trivial⟩
    unfold Circuit
    rw [this]
    simp
  · rw [if_neg h0]
    have hlen : xs.len = (xs.idx.card : Int) := rfl
    have hl : xs.lo ∈ xs.idx := by
      rw [hlen] at h0
      obtain ⟨i, hi⟩ := Finset.card_pos.mp (Nat.pos_of_ne_zero (by omega : xs.idx.card ≠ 0))
      have := (xs.mem_idx i).mp hi
      exact (xs.mem_idx _).mpr ⟨le_refl _, by omega⟩
    constructor
    · rintro ⟨order, hdom, -, hord, -, ho1, hs⟩
      have hoinj := ne_of_pairs hord
      have hmem : ∀ i ∈ xs.idx, xs i ∈ xs.idx := fun i hi => (hs i hi).1
      have hpos : 1 ≤ xs.len := (ho1 ▸ (hdom _ hl).2)
      have key : ∀ k : Nat, (k : Int) < xs.len → order (xs.val^[k] xs.lo) = k + 1 := by
        intro k
        induction k with
        | zero => intro _; simpa using ho1
        | succ k ih =>
          intro hk
          have hi := ih (by push_cast at hk; omega)
          rw [Function.iterate_succ_apply', (hs _ (iterate_mem hmem k _ hl)).2, hi, if_neg (by push_cast at hk; omega)]
          push_cast
          omega
      have hall : ∀ i ∈ xs.idx, xs.val^[(order i - 1).toNat] xs.lo = i := by
        intro i hi
        have hd := hdom i hi
        apply hoinj _ (iterate_mem hmem _ _ hl) _ hi
        rw [key _ (by omega)]
        omega
      have hback : xs.val^[xs.len.toNat] xs.lo = xs.lo := by
        apply hoinj _ (iterate_mem hmem _ _ hl) _ hl
        obtain ⟨m, hm⟩ : ∃ m, xs.len.toNat = m + 1 := ⟨xs.len.toNat - 1, by omega⟩
        rw [hm, Function.iterate_succ_apply', (hs _ (iterate_mem hmem m _ hl)).2, key m (by omega), if_pos (by omega),
          ho1]
      refine ⟨hmem, fun i hi j hj => ?_⟩
      have hdi := hdom i hi
      refine ⟨(order j - 1).toNat + (xs.len.toNat - (order i - 1).toNat), ?_⟩
      rw [Function.iterate_add_apply]
      have hto : ∀ a : Nat, a ≤ xs.len.toNat → xs.val^[a] xs.lo = i → xs.val^[xs.len.toNat - a] i = xs.lo := by
        rintro a ha rfl
        rw [← Function.iterate_add_apply, show xs.len.toNat - a + a = xs.len.toNat by omega, hback]
      have := hto _ (by omega) (hall i hi)
      rw [this, hall j hj]
    · rintro ⟨hmem, hreach⟩
      have hsurj : ∀ j ∈ xs.idx, ∃ i ∈ xs.idx, xs i = j := by
        intro j hj
        obtain ⟨k, hk⟩ := hreach (xs j) (hmem j hj) j hj
        refine ⟨xs.val^[k] j, iterate_mem hmem k j hj, ?_⟩
        rw [← Function.iterate_succ_apply' xs.val, Function.iterate_succ_apply, hk]
      have hinj := inj_of_surj hmem hsurj
      obtain ⟨dist, hd0, hdb, hdi, hds, hdp⟩ := numbering hl hmem (hreach _ hl) hinj
      refine ⟨fun i => dist i + 1, ?_, ?_, ?_, ?_, ?_, ?_⟩
      · intro i hi
        have := hdb i hi
        dsimp only
        omega
      · intro i hi j hj hlt heq
        have := hinj i hi j hj heq
        omega
      · intro i hi j hj hlt heq
        have := hdi i hi j hj (by dsimp only at heq; omega)
        omega
      · intro i hi hc
        apply h1
        have hfix : ∀ k : Nat, xs.val^[k] i = i := fun k => Function.iterate_fixed hc k
        have : xs.idx = {i} := by
          apply Finset.eq_singleton_iff_unique_mem.mpr
          refine ⟨hi, fun j hj => ?_⟩
          obtain ⟨k, hk⟩ := hreach i hi j hj
          rw [← hk, hfix]
        rw [hlen, this]
        rfl
      · simp [hd0]
      · intro i hi
        refine ⟨hmem i hi, ?_⟩
        dsimp only
        by_cases hc : xs i = xs.lo
        · have hlast : (dist i : Int) + 1 = xs.len := by
            by_contra hne
            have hb := hdb i hi
            -- all distances below the number of elements occur
            have himg : xs.idx.image dist = Finset.range xs.idx.card := by
              apply Finset.eq_of_subset_of_card_le
              · intro m hm
                obtain ⟨j, hj, rfl⟩ := Finset.mem_image.mp hm
                have := hdb j hj
                exact Finset.mem_range.mpr (by omega)
              · rw [Finset.card_range, Finset.card_image_iff.mpr]
                intro a ha b hb hab
                exact hdi a (Finset.mem_coe.mp ha) b (Finset.mem_coe.mp hb) hab
            have : dist i + 1 ∈ xs.idx.image dist := by
              rw [himg, Finset.mem_range]
              omega
            obtain ⟨j, hj, hjd⟩ := Finset.mem_image.mp this
            have hjl : j ≠ xs.lo := by
              rintro rfl
              omega
            obtain ⟨p, hp, hpj, hpd⟩ := hdp j hj hjl
            have : p = i := hdi p hp i hi (by omega)
            subst this
            exact hjl (hpj.symm.trans hc)
          rw [if_pos hlast, hc, hd0]
          simp
        · have := hds i hi hc
          have hb := hdb _ (hmem i hi)
          rw [if_neg (by omega), this]
          push_cast
          omega

theorem not_circuit_one (xs : Arr Int) (h1 : xs.len = 1) : ¬ fznCircuit xs := by
  unfold fznCircuit
  rw [if_neg (by omega)]
  rintro ⟨order, -, -, -, hne, -, hs⟩
  have hlen : xs.len = (xs.idx.card : Int) := rfl
  obtain ⟨i, hi⟩ := Finset.card_eq_one.mp (by omega : xs.idx.card = 1)
  have hm : i ∈ xs.idx := by rw [hi]; simp
  have := (hs i hm).1
  rw [hi, Finset.mem_singleton] at this
  exact hne i hm this

/-- `firstin` is the least node in the circuit. -/
theorem firstin_spec {xs : Arr Int} (hin : ∃ i ∈ xs.idx, xs i ≠ i) :
    let f := minOf xs.idx fun i => xs.hi + 1 + b2i (xs i ≠ i) * (i - xs.hi - 1)
    f ∈ xs.idx ∧ xs f ≠ f ∧ ∀ i ∈ xs.idx, xs i ≠ i → f ≤ i := by
  intro f
  obtain ⟨i0, hi0, hne0⟩ := hin
  have hle : ∀ i ∈ xs.idx, xs i ≠ i → f ≤ i := by
    intro i hi hne
    have := minOf_le (f := fun i => xs.hi + 1 + b2i (xs i ≠ i) * (i - xs.hi - 1)) hi
    rw [b2i_true hne] at this
    change f ≤ _ at this
    omega
  obtain ⟨j, hj, hfj⟩ := minOf_mem (f := fun i => xs.hi + 1 + b2i (xs i ≠ i) * (i - xs.hi - 1)) ⟨i0, hi0⟩
  change f = _ at hfj
  have hfi0 := hle i0 hi0 hne0
  have hb := (xs.mem_idx i0).mp hi0
  by_cases hjn : xs j ≠ j
  · rw [b2i_true hjn] at hfj
    have : f = j := by omega
    rw [this]
    rw [this] at hle
    exact ⟨hj, hjn, hle⟩
  · rw [b2i_false hjn] at hfj
    omega

theorem firstin_empty {xs : Arr Int} (hne : xs.idx.Nonempty) (hin : ∀ i ∈ xs.idx, xs i = i) :
    minOf xs.idx (fun i => xs.hi + 1 + b2i (xs i ≠ i) * (i - xs.hi - 1)) = xs.hi + 1 := by
  obtain ⟨j, hj, hfj⟩ := minOf_mem (f := fun i => xs.hi + 1 + b2i (xs i ≠ i) * (i - xs.hi - 1)) hne
  rw [hfj, b2i_false (by simpa using hin j hj)]
  omega

theorem subcircuit_iff (xs : Arr Int) : fznSubcircuit xs ↔ Subcircuit xs := by
  classical
  unfold fznSubcircuit
  by_cases h0 : xs.len = 0
  · rw [if_pos h0]
    have : xs.idx = ∅ := by
      unfold Arr.len at h0
      exact Finset.card_eq_zero.mp (by omega)
    refine ⟨fun _ => ?_, fun _ => trivial⟩
    unfold Subcircuit
    rw [this]
    simp
  · rw [if_neg h0]
    have hlen : xs.len = (xs.idx.card : Int) := rfl
    have hnz : xs.idx.card ≠ 0 := by rw [hlen] at h0; omega
    have hnonempty := Finset.card_pos.mp (Nat.pos_of_ne_zero hnz)
    have hl : xs.lo ∈ xs.idx := by
      obtain ⟨i, hi⟩ := hnonempty
      have := (xs.mem_idx i).mp hi
      exact (xs.mem_idx _).mpr ⟨le_refl _, by omega⟩
    dsimp only
    set f := minOf xs.idx fun i => xs.hi + 1 + b2i (xs i ≠ i) * (i - xs.hi - 1) with hf
    constructor
    · rintro ⟨order, lastin, hdom, -, -, hx, hord, hemp, hfull⟩
      have hxinj := ne_of_pairs hx
      by_cases hfu : f > xs.hi
      · have := hemp hfu
        refine ⟨fun i hi => ?_, fun i hi j hj h _ => absurd h (this i hi)⟩
        rw [not_not.mp (this i hi)]
        exact hi
      · obtain ⟨⟨hfm, hf1⟩, -, -, -, ⟨-, hfn⟩, hsucc, -⟩ := hfull hfu
        have hxm : ∀ i ∈ xs.idx, xs i ∈ xs.idx := by
          intro i hi
          by_cases hii : xs i = i
          · rw [hii]; exact hi
          by_cases hif : xs i = f
          · rw [hif]; exact hfm
          · exact (hsucc i hi ⟨hii, hif⟩).1
        -- the nodes in the circuit
        let I := xs.idx.filter fun i => xs i ≠ i
        have hI : ∀ i, i ∈ I ↔ i ∈ xs.idx ∧ xs i ≠ i := fun i => Finset.mem_filter
        have hIm : ∀ i ∈ I, xs i ∈ I := by
          intro i hi
          obtain ⟨h1, h2⟩ := (hI i).mp hi
          exact (hI _).mpr ⟨hxm i h1, fun hc => h2 (hxinj _ (hxm i h1) _ h1 hc)⟩
        have hsurj := surj_of_inj hIm fun i hi j hj => hxinj i ((hI i).mp hi).1 j ((hI j).mp hj).1
        have hto : ∀ m : Nat, ∀ i ∈ I, (xs.len - order i).toNat = m → ∃ k : Nat, xs.val^[k + 1] i = f := by
          intro m
          induction m with
          | zero =>
            intro i hi hm
            refine ⟨0, ?_⟩
            by_contra hc
            have h1 := (hsucc i ((hI i).mp hi).1 ⟨((hI i).mp hi).2, hc⟩)
            have h2 := (hdom _ h1.1).2
            have h3 := (hdom i ((hI i).mp hi).1).2
            omega
          | succ m ih =>
            intro i hi hm
            by_cases hc : xs i = f
            · exact ⟨0, hc⟩
            · have h1 := (hsucc i ((hI i).mp hi).1 ⟨((hI i).mp hi).2, hc⟩)
              obtain ⟨k, hk⟩ := ih (xs i) (hIm i hi) (by omega)
              exact ⟨k + 1, by rw [Function.iterate_succ_apply]; exact hk⟩
        have hfrom : ∀ m : Nat, ∀ j ∈ I, (order j).toNat = m → ∃ k : Nat, xs.val^[k] f = j := by
          intro m
          induction m with
          | zero =>
            intro j hj hm
            have := (hdom j ((hI j).mp hj).1).1
            omega
          | succ m ih =>
            intro j hj hm
            by_cases hc : j = f
            · exact ⟨0, hc.symm⟩
            · obtain ⟨i, hi, hij⟩ := hsurj j hj
              obtain ⟨h1, h2⟩ := (hI i).mp hi
              have h3 := hsucc i h1 ⟨h2, by rw [hij]; exact hc⟩
              rw [hij] at h3
              have h4 := (hdom i h1).1
              obtain ⟨k, hk⟩ := ih i hi (by omega)
              exact ⟨k + 1, by rw [Function.iterate_succ_apply', hk, hij]⟩
        refine ⟨hxm, fun i hi j hj hii hjj => ?_⟩
        obtain ⟨a, ha⟩ := hto _ i ((hI i).mpr ⟨hi, hii⟩) rfl
        obtain ⟨b, hb⟩ := hfrom _ j ((hI j).mpr ⟨hj, hjj⟩) rfl
        exact ⟨b + a, by rw [Nat.add_assoc, Function.iterate_add_apply, ha, hb]⟩
    · rintro ⟨hxm, hreach⟩
      by_cases hin : ∃ i ∈ xs.idx, xs i ≠ i
      · obtain ⟨hfm, hfn, hfle⟩ := firstin_spec hin
        rw [← hf] at hfm hfn hfle
        have hfb := (xs.mem_idx f).mp hfm
        let I := xs.idx.filter fun i => xs i ≠ i
        have hI : ∀ i, i ∈ I ↔ i ∈ xs.idx ∧ xs i ≠ i := fun i => Finset.mem_filter
        have hfI : f ∈ I := (hI f).mpr ⟨hfm, hfn⟩
        have hIm : ∀ i ∈ I, xs i ∈ I := by
          intro i hi
          obtain ⟨h1, h2⟩ := (hI i).mp hi
          refine (hI _).mpr ⟨hxm i h1, fun hc => h2 ?_⟩
          obtain ⟨k, hk⟩ := hreach i h1 i h1 h2 h2
          rw [Function.iterate_succ_apply, Function.iterate_fixed hc k] at hk
          exact hk
        have hsurj : ∀ j ∈ I, ∃ i ∈ I, xs i = j := by
          intro j hj
          obtain ⟨h1, h2⟩ := (hI j).mp hj
          obtain ⟨k, hk⟩ := hreach j h1 j h1 h2 h2
          exact ⟨xs.val^[k] j, iterate_mem hIm k j hj, by rw [← Function.iterate_succ_apply' xs.val, hk]⟩
        have hinj := inj_of_surj hIm hsurj
        obtain ⟨dist, hd0, hdb, hdi, hds, hdp⟩ := numbering hfI hIm (fun j hj => by
          obtain ⟨h1, h2⟩ := (hI j).mp hj
          obtain ⟨k, hk⟩ := hreach f hfm j h1 hfn h2
          exact ⟨_, hk⟩) hinj
        obtain ⟨lastin, hlI, hlast⟩ := hsurj f hfI
        obtain ⟨hlm, hln⟩ := (hI lastin).mp hlI
        let O := xs.idx.filter fun i => ¬ xs i ≠ i
        have hIO : I.card + O.card = xs.idx.card := Finset.card_filter_add_card_filter_not _
        let rank : Int → Nat := fun i => (O.filter (· ≤ i)).card
        have hrle : ∀ i, rank i ≤ O.card := fun i => Finset.card_filter_le _ _
        have hrpos : ∀ i ∈ xs.idx, i ∉ I → 1 ≤ rank i := by
          intro i hi hn
          apply Finset.card_pos.mpr
          exact ⟨i, Finset.mem_filter.mpr ⟨Finset.mem_filter.mpr ⟨hi, fun hc => hn ((hI i).mpr ⟨hi, hc⟩)⟩, le_refl _⟩⟩
        have hrlt : ∀ i, ∀ j ∈ xs.idx, j ∉ I → i < j → rank i < rank j := by
          intro i j hj hn hlt
          apply Finset.card_lt_card
          refine Finset.ssubset_iff_of_subset ?_ |>.mpr ⟨j, ?_, ?_⟩
          · intro m hm
            obtain ⟨h1, h2⟩ := Finset.mem_filter.mp hm
            exact Finset.mem_filter.mpr ⟨h1, by omega⟩
          · exact Finset.mem_filter.mpr ⟨Finset.mem_filter.mpr ⟨hj, fun hc => hn ((hI j).mpr ⟨hj, hc⟩)⟩, le_refl _⟩
          · intro hm
            have := (Finset.mem_filter.mp hm).2
            omega
        refine ⟨fun i => if i ∈ I then dist i + 1 else I.card + rank i, lastin, ?_, ⟨by omega, by omega⟩, hlm, ?_, ?_,
          ?_, fun _ => ⟨⟨hfm, by dsimp only; rw [if_pos hfI, hd0]; rfl⟩, ?_, hlast, hln, ⟨hfm, hfn⟩, ?_, ?_⟩⟩
        · intro i hi
          dsimp only
          by_cases hiI : i ∈ I
          · rw [if_pos hiI]
            have := hdb i hiI
            omega
          · rw [if_neg hiI]
            have := hrpos i hi hiI
            have := hrle i
            omega
        · intro i hi j hj hlt heq
          by_cases hiI : i ∈ I <;> by_cases hjI : j ∈ I
          · have := hinj i hiI j hjI heq
            omega
          · have h2 : xs j = j := by by_contra hc; exact hjI ((hI j).mpr ⟨hj, hc⟩)
            rw [h2] at heq
            exact hjI (heq ▸ hIm i hiI)
          · have h2 : xs i = i := by by_contra hc; exact hiI ((hI i).mpr ⟨hi, hc⟩)
            rw [h2] at heq
            exact hiI (heq ▸ hIm j hjI)
          · have h1 : xs i = i := by by_contra hc; exact hiI ((hI i).mpr ⟨hi, hc⟩)
            have h2 : xs j = j := by by_contra hc; exact hjI ((hI j).mpr ⟨hj, hc⟩)
            omega
        · intro i hi j hj hlt heq
          dsimp only at heq
          by_cases hiI : i ∈ I <;> by_cases hjI : j ∈ I
          · rw [if_pos hiI, if_pos hjI] at heq
            have := hdi i hiI j hjI (by omega)
            omega
          · rw [if_pos hiI, if_neg hjI] at heq
            have := hdb i hiI
            have := hrpos j hj hjI
            omega
          · rw [if_neg hiI, if_pos hjI] at heq
            have := hdb j hjI
            have := hrpos i hi hiI
            omega
          · rw [if_neg hiI, if_neg hjI] at heq
            have := hrlt i j hj hjI hlt
            omega
        · intro hc; omega
        · have h1 := hfle lastin hlm hln
          have h2 : lastin ≠ f := by
            intro hc
            rw [hc] at hlast
            exact hfn hlast
          omega
        · rintro i hi ⟨h1, h2⟩
          have hiI := (hI i).mpr ⟨hi, h1⟩
          refine ⟨hxm i hi, ?_⟩
          dsimp only
          rw [if_pos hiI, if_pos (hIm i hiI), hds i hiI h2]
          push_cast
          omega
        · intro i hi
          by_cases hii : xs i ≠ i
          · exact .inl hii
          · right
            dsimp only
            have hiI : i ∉ I := fun hc => hii ((hI i).mp hc).2
            rw [if_pos hlI, if_neg hiI]
            have := hdb lastin hlI
            have := hrpos i hi hiI
            omega
      · push Not at hin
        have hfe : f = xs.hi + 1 := firstin_empty hnonempty hin
        have hb := (xs.mem_idx _).mp hl
        refine ⟨fun i => i - xs.lo + 1, xs.lo, ?_, ⟨by omega, by omega⟩, hl, ?_, ?_, ?_, fun hc => absurd hfe (by omega)⟩
        · intro i hi
          have := (xs.mem_idx i).mp hi
          have hc : xs.len = xs.hi - xs.lo + 1 := by
            rw [hlen]
            unfold Arr.idx
            rw [Int.card_Icc]
            omega
          dsimp only
          omega
        · intro i hi j hj hlt heq
          rw [hin i hi, hin j hj] at heq
          omega
        · intro i hi j hj hlt heq
          dsimp only at heq
          omega
        · intro _ i hi hc
          exact hc (hin i hi)

theorem circuitOpt_iff (xs : Arr (Option Int)) : fznCircuitOpt xs ↔ CircuitOpt xs := by
  unfold fznCircuitOpt CircuitOpt
  rw [subcircuit_iff, and_comm]
  have hval : (fun i => deoptOr (xs i) i) = fun i => (xs i).getD i := by
    funext i
    cases xs i <;> rfl
  rw [hval]
  refine and_congr_left fun _ => forall_congr' fun i => imp_congr_right fun _ => ?_
  constructor
  · intro h hc
    exact h i hc rfl
  · rintro h v hv rfl
    exact h hv

end MZ.Graph
