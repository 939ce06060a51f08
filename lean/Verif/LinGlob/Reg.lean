import Verif.LinGlob.Basic

/-! # Lemmas: the regular constraint of the linear library -/

namespace MZ.LinGlob

open MZ.Globals MZ.LinLib MZ.LinArith MZ.LexOrd.Spec MZ.Ext.Spec

variable (o : Opts)

/-- Either decomposition of a step says that the transition is taken. -/
theorem regularStep_iff (limit : Nat) (d : Int → Int → Int) (a x b : V) (ea ex eb : Int → Int)
    (ha : ∀ v, ea v = if v = a.val then 1 else 0) (hx : ∀ v, ex v = if v = x.val then 1 else 0)
    (hb : ∀ v, eb v = if v = b.val then 1 else 0) :
    regularStep o limit d a x b ea ex eb ↔ d a.val x.val = b.val := by
  unfold regularStep
  split_ifs with hl
  · constructor
    · intro h
      have := h a.val a.mem x.val x.mem
      rw [ha, hx, hb, if_pos rfl, if_pos rfl] at this
      split_ifs at this with h1 h2
      · exact h2
      · omega
      · omega
    · intro e va hva vx hvx
      rw [ha, hx, hb]
      by_cases h1 : va = a.val
      · by_cases h2 : vx = x.val
        · subst h1 h2
          rw [e, if_pos b.mem, if_pos rfl, if_pos rfl, if_pos rfl]
          decide
        · rw [if_neg h2]; split_ifs <;> omega
      · rw [if_neg h1]; split_ifs <;> omega
  · constructor
    · rintro ⟨pp, hp, h1, h2⟩
      have hp := (eqEncode2_iff o a x pp).1 hp
      by_contra hne
      have h3 := h1 b.val b.mem
      rw [hb, if_pos rfl] at h3
      have : ∑ va1 ∈ a.dom, ∑ vx ∈ x.dom.filter (fun vx => d va1 vx = b.val), pp va1 vx = 0 := by
        refine Finset.sum_eq_zero fun va hva => Finset.sum_eq_zero fun vx hvx => ?_
        rw [Finset.mem_filter] at hvx
        rw [hp va (Finset.mem_Icc.2 ⟨a.lb_le_of hva, a.le_ub_of hva⟩) vx
          (Finset.mem_Icc.2 ⟨x.lb_le_of hvx.1, x.le_ub_of hvx.1⟩)]
        refine if_neg ?_
        rintro ⟨rfl, rfl⟩
        exact hne hvx.2
      omega
    · intro e
      refine ⟨fun va vx => if va = a.val ∧ vx = x.val then 1 else 0, (eqEncode2_iff o a x _).2 fun _ _ _ _ => rfl, ?_, ?_⟩
      · intro v hv
        rw [hb]
        rw [Finset.sum_eq_single a.val, Finset.sum_filter, Finset.sum_eq_single x.val]
        · rw [e]
          simp only [and_self, if_true]
          by_cases h : v = b.val
          · rw [if_pos h, if_pos h.symm]
          · rw [if_neg h, if_neg fun h' => h h'.symm]
        · intro vx _ hne
          by_cases h : d a.val vx = v
          · rw [if_pos h]; exact if_neg (fun h => hne h.2)
          · rw [if_neg h]
        · intro h; exact absurd x.mem h
        · intro va _ hne
          exact Finset.sum_eq_zero fun vx _ => if_neg fun h => hne h.1
        · intro h; exact absurd a.mem h
      · intro va hva vx hvx
        by_cases h2 : va = a.val ∧ vx = x.val
        · obtain ⟨rfl, rfl⟩ := h2
          rw [if_neg (not_not.2 (by rw [e]; exact b.mem))]
          trivial
        · split_ifs
          exact if_neg h2

/-- Acceptance by a run. -/
theorem accepts_run (step : Int → Int → Option Int) (F : Finset Int) (w : List Int) : ∀ q, Accepts step F q w ↔
    ∃ a : Nat → Int, a 0 = q ∧ (∀ k, (h : k < w.length) → step (a k) w[k] = some (a (k + 1))) ∧ a w.length ∈ F := by
  induction w with
  | nil =>
    intro q
    constructor
    · intro h; exact ⟨fun _ => q, rfl, fun k hk => absurd hk (by simp), h⟩
    · rintro ⟨a, rfl, -, h⟩; exact h
  | cons x w ih =>
    intro q
    unfold Accepts
    constructor
    · rintro ⟨q', h1, h2⟩
      obtain ⟨a, a0, a1, a2⟩ := (ih q').1 h2
      refine ⟨fun k => match k with | 0 => q | k + 1 => a k, rfl, ?_, a2⟩
      intro k hk
      cases k with
      | zero => show step q x = some (a 0); rw [a0]; exact h1
      | succ k => exact a1 k (by simpa using hk)
    · rintro ⟨a, rfl, h1, h2⟩
      refine ⟨a 1, h1 0 (by simp), (ih _).2 ⟨fun k => a (k + 1), rfl, ?_, h2⟩⟩
      intro k hk
      exact h1 (k + 1) (by simpa using hk)

section
variable {Q S : Int} {d : Int → Int → Int} {q0 : Int} {Fin : Finset Int} {N : Nat} {X : Nat → Finset Int}

theorem dom2_last : dom2 Q S d q0 Fin N X N = dom1 Q S d q0 Fin N X N := by
  unfold dom2
  rw [Nat.sub_self]
  rfl

theorem dom2_step {k : Nat} (h : k < N) : dom2 Q S d q0 Fin N X k =
    backStates d (dom1 Q S d q0 Fin N X k) (symDom S X k) (dom2 Q S d q0 Fin N X (k + 1)) := by
  unfold dom2
  have e : N - k = (N - (k + 1)) + 1 := by omega
  rw [e, dom2r, show N - (N - (k + 1) + 1) = k by omega]

theorem dom2_sub {k : Nat} (h : k ≤ N) : dom2 Q S d q0 Fin N X k ⊆ dom1 Q S d q0 Fin N X k := by
  rcases Nat.lt_or_ge k N with h1 | h1
  · rw [dom2_step h1]; exact Finset.filter_subset _ _
  · rw [show k = N by omega, dom2_last]

theorem dom3_sub (k : Nat) : dom3 Q S d q0 Fin N X k ⊆ dom2 Q S d q0 Fin N X k := by
  cases k with
  | zero => exact Finset.Subset.refl _
  | succ k => exact Finset.inter_subset_left

theorem dom1_sub (k : Nat) : dom1 Q S d q0 Fin N X k ⊆ Finset.Icc 1 Q := by
  cases k with
  | zero => exact Finset.inter_subset_left
  | succ k => exact Finset.inter_subset_left.trans Finset.inter_subset_left

/-- The passes lose no accepting run. -/
theorem passes {a x : Nat → Int} (h0 : a 0 = q0) (ha : ∀ k ≤ N, a k ∈ Finset.Icc 1 Q) (hF : a N ∈ Fin)
    (hx : ∀ k < N, x k ∈ symDom S X k) (hs : ∀ k < N, a (k + 1) = d (a k) (x k)) :
    (∀ k ≤ N, a k ∈ dom3 Q S d q0 Fin N X k) ∧ ∀ k < N, x k ∈ symDom2 Q S d q0 Fin N X k := by
  have next : ∀ k < N, ∀ A B : Finset Int, a k ∈ A → x k ∈ B → a (k + 1) ∈ nextStates d A B := by
    intro k hk A B h1 h2
    unfold nextStates
    rw [Finset.mem_sdiff, Finset.mem_biUnion]
    refine ⟨⟨a k, h1, Finset.mem_image.2 ⟨x k, h2, (hs k hk).symm⟩⟩, ?_⟩
    have := Finset.mem_Icc.1 (ha (k + 1) hk)
    rw [Finset.mem_singleton]
    omega
  have p1 : ∀ k ≤ N, a k ∈ dom1 Q S d q0 Fin N X k := by
    intro k
    induction k with
    | zero => intro h; exact Finset.mem_inter.2 ⟨ha 0 h, by simp [h0]⟩
    | succ k ih =>
      intro h
      refine Finset.mem_inter.2 ⟨Finset.mem_inter.2 ⟨ha _ h, next k h _ _ (ih (by omega)) (hx k h)⟩, ?_⟩
      split_ifs with e
      · rw [e]; exact hF
      · exact ha _ h
  have p2 : ∀ j ≤ N, a (N - j) ∈ dom2 Q S d q0 Fin N X (N - j) := by
    intro j
    induction j with
    | zero => intro _; rw [Nat.sub_zero, dom2_last]; exact p1 N (le_refl _)
    | succ j ih =>
      intro h
      have hlt : N - (j + 1) < N := by omega
      rw [dom2_step hlt]
      have e : N - (j + 1) + 1 = N - j := by omega
      refine Finset.mem_filter.2 ⟨p1 _ hlt.le, x (N - (j + 1)), hx _ hlt, ?_⟩
      rw [← hs _ hlt, e]
      exact ih (by omega)
  have p2' : ∀ k ≤ N, a k ∈ dom2 Q S d q0 Fin N X k := by
    intro k hk
    have := p2 (N - k) (by omega)
    rwa [show N - (N - k) = k by omega] at this
  have ps : ∀ k < N, x k ∈ symDom2 Q S d q0 Fin N X k := by
    intro k hk
    exact Finset.mem_filter.2 ⟨hx k hk, a k, p2' k hk.le, by rw [← hs k hk]; exact p2' _ hk⟩
  refine ⟨?_, ps⟩
  intro k
  induction k with
  | zero => intro h; exact p2' 0 h
  | succ k ih =>
    intro h
    exact Finset.mem_inter.2 ⟨p2' _ h, next k h _ _ (ih (by omega)) (ps k h)⟩

end

theorem regular_iff (limit : Nat) (xs : Arr V) (Q S : Int) (d : Int → Int → Int) (q0 : Int) (Fin : Finset Int)
    (hq : 1 ≤ q0 ∧ q0 ≤ Q) (hd : ∀ q s, 1 ≤ q → q ≤ Q → 1 ≤ s → s ≤ S → 0 ≤ d q s ∧ d q s ≤ Q) :
    regular o limit xs Q S d q0 Fin ↔
      Accepts (stepOf d (fun x => 1 ≤ x ∧ x ≤ S)) Fin q0 (elems (vals xs)) := by
  unfold regular
  by_cases h0 : xs.len = 0
  · rw [if_pos h0, LexOrd.elems_nil (show (vals xs).len = 0 from h0)]; rfl
  rw [if_neg h0]
  have hn := LexOrd.len_nonneg xs
  have hlen : (elems (vals xs)).length = xs.len.toNat := by
    have : (vals xs).len = ((elems (vals xs)).length : Int) := LexOrd.len_eq_length _
    have : (vals xs).len = xs.len := rfl
    omega
  have hpos : 0 < xs.len.toNat := by omega
  rw [accepts_run]
  have hel : ∀ k (h : k < (elems (vals xs)).length), (elems (vals xs))[k] = (xs (xs.lo + k)).val :=
    fun k h => LexOrd.getElem_elems _ _ _
  generalize hN : xs.len.toNat = N at hlen hpos
  dsimp only
  constructor
  · rintro ⟨a, ha, hx, ea, ex, h1, h2, h3⟩
    have e1 := (eqEncodeArr_iff o _ _).1 h1
    have e2 := (eqEncodeArr_iff o _ _).1 h2
    have hstep : ∀ k < N, d (a k) (xs (xs.lo + k)).val = a (k + 1) := by
      intro k hk
      have := (regularStep_iff o limit d _ _ _ _ _ _ (e1 k) (e2 k) (e1 (k + 1))).1 (h3 k hk)
      rw [dif_pos (show k ≤ N by omega), dif_pos hk, dif_pos (show k + 1 ≤ N by omega)] at this
      exact this
    have hr : ∀ k ≤ N, a k ∈ dom1 Q S d q0 Fin N _ k := fun k hk => dom2_sub hk (dom3_sub k (ha k hk))
    refine ⟨a, ?_, ?_, ?_⟩
    · have := (Finset.mem_inter.1 (hr 0 (by omega))).2
      simpa using this
    · intro k hk
      rw [hel]
      have hk' : k < N := by omega
      have s1 := (Finset.mem_inter.1 (Finset.mem_filter.1 (hx k hk')).1).2
      have s2 := Finset.mem_Icc.1 (dom1_sub _ (hr (k + 1) hk'))
      unfold stepOf
      rw [hstep k hk', if_pos ⟨Finset.mem_Icc.1 s1, by omega⟩]
    · rw [hlen]
      obtain ⟨m, hm⟩ : ∃ m, N = m + 1 := ⟨N - 1, by omega⟩
      have := hr N (le_refl _)
      rw [hm, dom1, if_pos rfl] at this
      rw [hm]
      exact (Finset.mem_inter.1 this).2
  · rintro ⟨a, a0, a1, a2⟩
    rw [hlen] at a2
    have hs : ∀ k < N, (1 ≤ (xs (xs.lo + k)).val ∧ (xs (xs.lo + k)).val ≤ S) ∧ d (a k) (xs (xs.lo + k)).val ≠ 0 ∧
        a (k + 1) = d (a k) (xs (xs.lo + k)).val := by
      intro k hk
      have := a1 k (by omega)
      rw [hel] at this
      unfold stepOf at this
      split_ifs at this with hc
      exact ⟨hc.1, hc.2, (Option.some.inj this).symm⟩
    have ha : ∀ k ≤ N, a k ∈ Finset.Icc 1 Q := by
      intro k
      induction k with
      | zero => intro _; rw [a0]; exact Finset.mem_Icc.2 hq
      | succ k ih =>
        intro hk
        have i1 := Finset.mem_Icc.1 (ih (by omega))
        obtain ⟨s1, s2, s3⟩ := hs k hk
        have := hd _ _ i1.1 i1.2 s1.1 s1.2
        rw [s3, Finset.mem_Icc]
        omega
    obtain ⟨p1, p2⟩ := passes (S := S) (d := d) (X := fun k : Nat => (xs (xs.lo + k)).dom)
      (x := fun k : Nat => (xs (xs.lo + k)).val) a0 ha a2
      (fun k hk => Finset.mem_inter.2 ⟨V.mem _, Finset.mem_Icc.2 (hs k hk).1⟩) (fun k hk => (hs k hk).2.2)
    refine ⟨a, p1, p2, _, _, (eqEncodeArr_iff o _ _).2 fun _ _ => rfl, (eqEncodeArr_iff o _ _).2 fun _ _ => rfl, ?_⟩
    intro k hk
    rw [regularStep_iff o limit d _ _ _ _ _ _ (fun _ => rfl) (fun _ => rfl) (fun _ => rfl)]
    rw [dif_pos (show k ≤ N by omega), dif_pos hk, dif_pos (show k + 1 ≤ N by omega)]
    exact (hs k hk).2.2.symm

end MZ.LinGlob
