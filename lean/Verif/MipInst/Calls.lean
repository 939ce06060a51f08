import Verif.MipInst.Post
import Mathlib.Algebra.BigOperators.Group.List.Basic
import Mathlib.Tactic.LinearCombination
import Mathlib.Tactic.FieldSimp

/-! # Each kind of call -/

namespace MZ
namespace MipInst

/-! ## Rows -/

theorem evalTerms_cons (x : Nat → Rat) (t : Nat × Rat) (l : List (Nat × Rat)) : evalTerms x (t :: l) = t.2 * x t.1 + evalTerms x l := by
  simp [evalTerms]

theorem evalTerms_append (x : Nat → Rat) (l l' : List (Nat × Rat)) : evalTerms x (l ++ l') = evalTerms x l + evalTerms x l' := by
  simp [evalTerms]

theorem evalTerms_addTerm (x : Nat → Rat) (k : Nat) (c : Rat) : ∀ l, evalTerms x (addTerm k c l) = c * x k + evalTerms x l
  | [] => by simp [addTerm, evalTerms]
  | (k', c') :: l => by
    unfold addTerm
    split_ifs with h
    · subst h
      rw [evalTerms_cons, evalTerms_cons]
      ring
    · rw [evalTerms_cons, evalTerms_cons, evalTerms_addTerm x k c l]
      ring

theorem keys_addTerm (k : Nat) (c : Rat) : ∀ l, ∀ t ∈ addTerm k c l, t.1 = k ∨ ∃ u ∈ l, u.1 = t.1
  | [], t, h => by
    simp only [addTerm, List.mem_singleton] at h
    exact Or.inl (by rw [h])
  | (k', c') :: l, t, h => by
    unfold addTerm at h
    split_ifs at h with hk
    · simp only [List.mem_cons] at h
      rcases h with rfl | h
      · exact Or.inl hk
      · exact Or.inr ⟨t, by simp [h], rfl⟩
    · simp only [List.mem_cons] at h
      rcases h with rfl | h
      · exact Or.inr ⟨(k', c'), by simp, rfl⟩
      · rcases keys_addTerm k c l t h with h | ⟨u, hu, h⟩
        · exact Or.inl h
        · exact Or.inr ⟨u, by simp [hu], h⟩

theorem removeDuplicates_spec (l : List (Nat × Rat)) :
    (∀ x, evalTerms x (removeDuplicates l) = evalTerms x l) ∧ ∀ t ∈ removeDuplicates l, ∃ u ∈ l, u.1 = t.1 := by
  have h : (∀ x, evalTerms x (l.foldr (fun t acc => addTerm t.1 t.2 acc) []) = evalTerms x l) ∧
      ∀ t ∈ l.foldr (fun t acc => addTerm t.1 t.2 acc) [], ∃ u ∈ l, u.1 = t.1 := by
    induction l with
    | nil => simp
    | cons a l ih =>
      constructor
      · intro x
        rw [List.foldr_cons, evalTerms_addTerm, ih.1, evalTerms_cons]
      · intro t ht
        rw [List.foldr_cons] at ht
        rcases keys_addTerm _ _ _ t ht with h | ⟨u, hu, h⟩
        · exact ⟨a, by simp, h.symm⟩
        · obtain ⟨w, hw, h'⟩ := ih.2 u hu
          exact ⟨w, by simp [hw], h'.trans h⟩
  unfold removeDuplicates
  dsimp only
  split_ifs
  · exact ⟨fun _ => rfl, fun t ht => ⟨t, ht, rfl⟩⟩
  · exact h

theorem addTerm_keys (k : Nat) (c : Rat) : ∀ l : List (Nat × Rat), (addTerm k c l).map Prod.fst = if k ∈ l.map Prod.fst then l.map Prod.fst else l.map Prod.fst ++ [k]
  | [] => by simp [addTerm]
  | (k', c') :: l => by
    unfold addTerm
    split_ifs with h h' h'
    · simp
    · subst h
      simp at h'
    · rw [List.map_cons, addTerm_keys k c l]
      have : k ∈ l.map Prod.fst := by
        simp only [List.map_cons, List.mem_cons] at h'
        exact h'.resolve_left (fun e => h e.symm)
      rw [if_pos this]
      simp
    · rw [List.map_cons, addTerm_keys k c l]
      have : k ∉ l.map Prod.fst := fun e => h' (by simp only [List.map_cons, List.mem_cons]; exact Or.inr e)
      rw [if_neg this]
      simp

theorem removeDuplicates_nodup (l : List (Nat × Rat)) : ((removeDuplicates l).map Prod.fst).Nodup := by
  have key : ∀ l : List (Nat × Rat), ((l.foldr (fun t acc => addTerm t.1 t.2 acc) []).map Prod.fst).Nodup ∧
      (l.foldr (fun t acc => addTerm t.1 t.2 acc) []).length ≤ l.length ∧
      ((l.foldr (fun t acc => addTerm t.1 t.2 acc) []).length = l.length → (l.map Prod.fst).Nodup) ∧
      ∀ k, k ∈ (l.foldr (fun t acc => addTerm t.1 t.2 acc) []).map Prod.fst ↔ k ∈ l.map Prod.fst := by
    intro l
    induction l with
    | nil => simp
    | cons a l ih =>
      obtain ⟨h1, h2, h3, h4⟩ := ih
      have hk := addTerm_keys a.1 a.2 (l.foldr (fun t acc => addTerm t.1 t.2 acc) [])
      have hl : (addTerm a.1 a.2 (l.foldr (fun t acc => addTerm t.1 t.2 acc) [])).length =
          ((addTerm a.1 a.2 (l.foldr (fun t acc => addTerm t.1 t.2 acc) [])).map Prod.fst).length := by simp
      rw [List.foldr_cons]
      by_cases h : a.1 ∈ (l.foldr (fun t acc => addTerm t.1 t.2 acc) []).map Prod.fst
      · rw [if_pos h] at hk
        rw [hk] at hl ⊢
        rw [hl]
        refine ⟨h1, ?_, ?_, ?_⟩
        · simp only [List.length_map, List.length_cons]; omega
        · intro e
          simp only [List.length_map, List.length_cons] at e
          omega
        · intro k
          rw [h4, List.map_cons, List.mem_cons]
          constructor
          · exact Or.inr
          · rintro (rfl | e)
            · exact (h4 _).mp h
            · exact e
      · rw [if_neg h] at hk
        rw [hk] at hl ⊢
        rw [hl]
        refine ⟨?_, ?_, ?_, ?_⟩
        · rw [List.nodup_append]
          exact ⟨h1, by simp, by
            intro b hb c hc
            simp only [List.mem_singleton] at hc
            rintro rfl
            exact h (hc ▸ hb)⟩
        · simp only [List.length_append, List.length_map, List.length_cons, List.length_nil]; omega
        · intro e
          simp only [List.length_append, List.length_map, List.length_cons, List.length_nil] at e
          rw [List.map_cons, List.nodup_cons]
          exact ⟨fun e' => h ((h4 _).mpr e'), h3 (by omega)⟩
        · intro k
          rw [List.mem_append, h4, List.map_cons, List.mem_cons]
          simp only [List.mem_cons, List.not_mem_nil, or_false]
          tauto
  unfold removeDuplicates
  dsimp only
  split_ifs with h
  · exact (key l).2.2.1 h.symm
  · exact (key l).1

theorem violated_iff {s : Sense} {rhs : Rat} (h : Integral rhs) : violated s rhs = true ↔ ¬ s.Rel 0 rhs := by
  obtain ⟨z, rfl⟩ := h
  cases s
  · simp only [violated, Sense.Rel, decide_eq_true_eq, not_le]
    constructor
    · intro h; linarith
    · intro h
      have : (z : Rat) < 0 := h
      have h1 : z ≤ -1 := by
        have : z < 0 := by exact_mod_cast this
        omega
      have h2 : (z : Rat) ≤ -1 := by exact_mod_cast h1
      linarith
  · simp only [violated, Sense.Rel, decide_eq_true_eq]
    constructor
    · intro h e
      rw [← e] at h
      norm_num at h
    · intro h
      have h0 : z ≠ 0 := fun e => h (by rw [e]; norm_num)
      have h1 : 1 ≤ |z| := Int.one_le_abs h0
      have h2 : (1 : Rat) ≤ |(z : Rat)| := by
        rw [← Int.cast_abs]
        exact_mod_cast h1
      linarith
  · simp only [violated, Sense.Rel, decide_eq_true_eq, not_le]
    constructor
    · intro h; linarith
    · intro h
      have h1 : 1 ≤ z := by
        have : 0 < z := by exact_mod_cast h
        omega
      have h2 : (1 : Rat) ≤ z := by exact_mod_cast h1
      linarith

theorem Step.finish (inf : Rat) (m : Mip) (ts : List (Nat × Rat)) (s : Sense) (rhs : Rat) (mk : Nat) (hts : Good m → ∀ t ∈ ts, t.1 < m.cols.length)
    (hm : mk ≠ 2) (hi : ts = [] → Integral rhs) {P : (Nat → Rat) → Prop} (h : ∀ x, s.Rel (evalTerms x ts) rhs ↔ P (m.values x)) :
    Step inf m (finish m ts s rhs mk) P := by
  unfold MipInst.finish
  by_cases ht : ts = []
  · rw [if_pos ht]
    have hz : ∀ x, evalTerms x ts = 0 := by
      intro x
      rw [ht]
      rfl
    by_cases hv : violated s rhs = true
    · rw [if_pos hv]
      refine Step.unsat inf m fun x hp => ?_
      rw [← h, hz] at hp
      exact (violated_iff (hi ht)).mp hv hp
    · rw [if_neg hv]
      refine Step.refl inf m fun x => ?_
      rw [← h, hz]
      by_contra hp
      exact hv ((violated_iff (hi ht)).mpr hp)
  · rw [if_neg ht]
    have hr := removeDuplicates_spec ts
    refine Step.row inf m _ ?_ ?_
    · intro g t ht
      obtain ⟨u, hu, e⟩ := hr.2 t ht
      rw [← e]
      exact hts g u hu
    · intro x
      rw [← h]
      unfold Row.Ok
      dsimp only
      rw [hr.1]
      exact or_iff_right hm

theorem mask_ne {c : Call} (h : c.userCut = true → c.isLazy = true) : mask c ≠ 2 := by
  unfold mask
  cases h1 : c.userCut <;> cases h2 : c.isLazy <;> simp [h1, h2] at h ⊢

theorem linTerms_spec (m : Mip) : ∀ (cs : List Rat) (xs : List Arg) (rhs : Rat), cs.length = xs.length → (∀ n, .var n ∈ xs → ∃ k, m.names n = some k) →
    ∃ ts r, linTerms m (cs.map .lit) xs rhs = .ok (ts, r) ∧ (Good m → ∀ t ∈ ts, t.1 < m.cols.length) ∧ (ts = [] → ∀ n, .var n ∉ xs) ∧
      ∀ x, evalTerms x ts - r = dot cs (xs.map (Arg.value (m.values x))) - rhs
  | [], [], rhs, _, _ => ⟨[], rhs, rfl, by simp, by simp, by simp [evalTerms, dot]⟩
  | c :: cs, .var n :: xs, rhs, hl, hd => by
    obtain ⟨k, hk⟩ := hd n (by simp)
    obtain ⟨ts, r, h1, h2, h3, h4⟩ := linTerms_spec m cs xs rhs (by simpa using hl) (fun n hn => hd n (by simp [hn]))
    refine ⟨(k, c) :: ts, r, ?_, ?_, by simp, ?_⟩
    · simp only [List.map_cons, linTerms, exprToConst, Res.ok_bind, hk, h1]
    · intro g t ht
      simp only [List.mem_cons] at ht
      rcases ht with rfl | ht
      · exact g.names n k hk
      · exact h2 g t ht
    · intro x
      have := h4 x
      rw [evalTerms_cons]
      simp only [dot, List.map_cons, List.zip_cons_cons, List.sum_cons] at this ⊢
      have hv : Arg.value (m.values x) (.var n) = x k := by simp [Arg.value, Mip.values, hk]
      rw [hv]
      linarith
  | c :: cs, .lit w :: xs, rhs, hl, hd => by
    obtain ⟨ts, r, h1, h2, h3, h4⟩ := linTerms_spec m cs xs (rhs - c * w) (by simpa using hl) (fun n hn => hd n (by simp [hn]))
    refine ⟨ts, r, ?_, h2, ?_, ?_⟩
    · simp only [List.map_cons, linTerms, exprToConst, Res.ok_bind, h1]
    · intro e n hn
      simp only [List.mem_cons, reduceCtorEq, false_or] at hn
      exact h3 e n hn
    · intro x
      have := h4 x
      simp only [dot, List.map_cons, List.zip_cons_cons, List.sum_cons, Arg.value] at this ⊢
      linarith

theorem dot_integral : ∀ (cs : List Rat) (xs : List Arg) (σ : Nat → Rat), (∀ v ∈ cs, Integral v) → (∀ v, .lit v ∈ xs → Integral v) →
    (∀ n, .var n ∉ xs) → Integral (dot cs (xs.map (Arg.value σ)))
  | [], _, _, _, _, _ => ⟨0, by simp [dot]⟩
  | _ :: _, [], _, _, _, _ => ⟨0, by simp [dot]⟩
  | c :: cs, .var n :: xs, _, _, _, h => absurd (by simp) (h n)
  | c :: cs, .lit w :: xs, σ, h1, h2, h3 => by
    obtain ⟨a, ha⟩ := h1 c (by simp)
    obtain ⟨b, hb⟩ := h2 w (by simp)
    obtain ⟨z, hz⟩ := dot_integral cs xs σ (fun v hv => h1 v (by simp [hv])) (fun v hv => h2 v (by simp [hv])) (fun n hn => h3 n (by simp [hn]))
    refine ⟨a * b + z, ?_⟩
    simp only [dot, List.map_cons, List.zip_cons_cons, List.sum_cons, Arg.value] at hz ⊢
    rw [hz, ha, hb]
    push_cast
    ring

theorem pLin_step (inf : Rat) (m : Mip) (c : Call) (s : Sense) (cs : List Rat) (xs : List Arg) (r : Rat)
    (ha : c.args = [.arr (cs.map .lit), .arr xs, .one (.lit r)]) (hl : cs.length = xs.length)
    (hs : (∃ n, .var n ∈ xs) ∨ (∀ v ∈ cs, Integral v) ∧ (∀ v, .lit v ∈ xs → Integral v) ∧ Integral r)
    (hd : ∀ n, .var n ∈ xs → ∃ k, m.names n = some k) (he : c.userCut = true → c.isLazy = true) :
    ∃ m', pLin m c s = .ok m' ∧ Step inf m m' (fun σ => s.Rel (dot cs (xs.map (Arg.value σ))) r) := by
  obtain ⟨ts, r', h1, h2, h3, h4⟩ := linTerms_spec m cs xs r hl hd
  refine ⟨MipInst.finish m ts s r' (mask c), ?_, ?_⟩
  · unfold pLin
    rw [ha]
    simp only [exprToConst, Res.ok_bind, h1]
  · refine Step.finish inf m ts s r' _ h2 (mask_ne he) ?_ ?_
    · intro e
      rcases hs with ⟨n, hn⟩ | ⟨i1, i2, i3⟩
      · exact absurd hn (h3 e n)
      · obtain ⟨z, hz⟩ := dot_integral cs xs (m.values fun _ => 0) i1 i2 (h3 e)
        obtain ⟨w, hw⟩ := i3
        have := h4 fun _ => 0
        rw [e] at this
        refine ⟨w - z, ?_⟩
        push_cast
        rw [← hz, ← hw]
        simp only [evalTerms, List.map_nil, List.sum_nil] at this
        linarith
    · intro x
      have := h4 x
      cases s <;> simp only [Sense.Rel] <;> constructor <;> intro h <;> linarith

theorem side_spec (m : Mip) (coef : Rat) (a : Arg) (hd : ∀ n, a = .var n → ∃ k, m.names n = some k) :
    ∃ ts r, side m coef a = .ok (ts, r) ∧ (Good m → ∀ t ∈ ts, t.1 < m.cols.length) ∧ (ts = [] → ∃ v, a = .lit v ∧ r = -(coef * v)) ∧
      ∀ x, evalTerms x ts - r = coef * a.value (m.values x) := by
  cases a with
  | var n =>
    obtain ⟨k, hk⟩ := hd n rfl
    refine ⟨[(k, coef)], 0, by simp [side, hk], ?_, by simp, ?_⟩
    · intro g t ht
      simp only [List.mem_singleton] at ht
      subst ht
      exact g.names n k hk
    · intro x
      simp [evalTerms, Arg.value, Mip.values, hk]
  | lit v =>
    refine ⟨[], -(coef * v), rfl, by simp, fun _ => ⟨v, rfl, rfl⟩, ?_⟩
    intro x
    simp [evalTerms, Arg.value]

theorem pNonLin_step (inf : Rat) (m : Mip) (c : Call) (s : Sense) (a b : Arg) (ha : c.args = [.one a, .one b])
    (hs : (∃ n, a = .var n ∨ b = .var n) ∨ ∀ v, a = .lit v ∨ b = .lit v → Integral v)
    (hd : ∀ n, a = .var n ∨ b = .var n → ∃ k, m.names n = some k) (he : c.userCut = true → c.isLazy = true) :
    ∃ m', pNonLin m c s = .ok m' ∧ Step inf m m' (fun σ => s.Rel (a.value σ) (b.value σ)) := by
  obtain ⟨ta, ra, h1, h2, h3, h4⟩ := side_spec m 1 a fun n hn => hd n (Or.inl hn)
  obtain ⟨tb, rb, h5, h6, h7, h8⟩ := side_spec m (-1) b fun n hn => hd n (Or.inr hn)
  refine ⟨MipInst.finish m (ta ++ tb) s (ra + rb) (mask c), ?_, ?_⟩
  · unfold pNonLin
    rw [ha]
    simp only [h1, h5, Res.ok_bind]
  · refine Step.finish inf m _ s _ _ ?_ (mask_ne he) ?_ ?_
    · intro g t ht
      simp only [List.mem_append] at ht
      exact ht.elim (h2 g t) (h6 g t)
    · intro e
      obtain ⟨e1, e2⟩ := List.append_eq_nil_iff.mp e
      obtain ⟨v, rfl, rfl⟩ := h3 e1
      obtain ⟨w, rfl, rfl⟩ := h7 e2
      rcases hs with ⟨n, hn⟩ | hs
      · simp at hn
      · obtain ⟨z, rfl⟩ := hs v (Or.inl rfl)
        obtain ⟨y, rfl⟩ := hs w (Or.inr rfl)
        exact ⟨-z + y, by push_cast; ring⟩
    · intro x
      have i1 := h4 x
      have i2 := h8 x
      rw [evalTerms_append]
      cases s <;> simp only [Sense.Rel] <;> constructor <;> intro h <;> linarith

/-! ## Indicators -/

theorem pIndicatorLe0If0_step (inf : Rat) (m : Mip) (hg : Good m) (c : Call) (x b : Nat) (ha : c.args = [.one (.var x), .one (.var b)])
    (hd : ∀ n, n = x ∨ n = b → ∃ k, m.names n = some k) :
    ∃ m', pIndicatorLe0If0 m c = .ok m' ∧ Step inf m m' (fun σ => σ b = 0 → σ x ≤ 0) := by
  obtain ⟨k, hk⟩ := hd x (Or.inl rfl)
  obtain ⟨l, hl⟩ := hd b (Or.inr rfl)
  refine ⟨addGen m (.indicator l 0 [(k, 1)] .lq 0), ?_, ?_⟩
  · unfold pIndicatorLe0If0
    rw [ha]
    simp only [hk, hl]
  · have := Step.gen inf m [] (by simp) (.indicator l 0 [(k, 1)] .lq 0) (P := fun σ => σ b = 0 → σ x ≤ 0) (by
      intro j hj
      simp only [Gen.idx, List.map_cons, List.map_nil, List.mem_cons, List.not_mem_nil, or_false] at hj
      rcases hj with rfl | rfl
      · exact hg.names _ _ hl
      · exact hg.names _ _ hk) (by
      intro y _
      simp [Gen.Ok, Sense.Rel, evalTerms, Mip.values, hk, hl])
    rwa [withLits_nil] at this

theorem pIndicatorKnown_step (inf : Rat) (m : Mip) (c : Call) (v b : Rat) (ha : c.args = [.one (.lit v), .one (.lit b)])
    (hv : Integral v) (hb : b = 0 ∨ b = 1) :
    ∃ m', pIndicatorLe0If0 m c = .ok m' ∧ Step inf m m' (fun _ => b = 0 → v ≤ 0) := by
  refine ⟨if 1 / 1000000 < v ∧ b < 1 / 1000000 then setUnsat m else m, ?_, ?_⟩
  · unfold pIndicatorLe0If0
    rw [ha]
  · obtain ⟨z, rfl⟩ := hv
    split_ifs with h
    · refine Step.unsat inf m fun x hp => ?_
      rcases hb with rfl | rfl
      · have := hp rfl
        linarith [h.1]
      · norm_num at h
    · refine Step.refl inf m fun x hb0 => ?_
      subst hb0
      push Not at h
      by_contra hz
      push Not at hz
      have h1 : 1 ≤ z := by
        have : 0 < z := by exact_mod_cast hz
        omega
      have h2 : (1 : Rat) ≤ z := by exact_mod_cast h1
      have := h (by linarith)
      norm_num at this

theorem pIndicatorEqIf1_step (inf : Rat) (m : Mip) (hg : Good m) (c : Call) (a b : Arg) (f : Nat) (ha : c.args = [.one a, .one b, .one (.var f)])
    (hs : ∃ n, a = .var n ∨ b = .var n) (hd : ∀ n, a = .var n ∨ b = .var n ∨ n = f → ∃ k, m.names n = some k) :
    ∃ m', pIndicatorEqIf1 m c = .ok m' ∧ Step inf m m' (fun σ => σ f = 1 → a.value σ = b.value σ) := by
  obtain ⟨ta, ra, h1, h2, h3, h4⟩ := side_spec m 1 a fun n hn => hd n (Or.inl hn)
  obtain ⟨tb, rb, h5, h6, h7, h8⟩ := side_spec m (-1) b fun n hn => hd n (Or.inr (Or.inl hn))
  obtain ⟨k, hk⟩ := hd f (Or.inr (Or.inr rfl))
  refine ⟨addGen m (.indicator k 1 (ta ++ tb) .eq (ra + rb)), ?_, ?_⟩
  · unfold pIndicatorEqIf1
    rw [ha]
    simp only [h1, h5, Res.ok_bind, hk]
    obtain ⟨n, hn⟩ := hs
    rcases hn with rfl | rfl
    · rfl
    · cases a <;> rfl
  · have := Step.gen inf m [] (by simp) (.indicator k 1 (ta ++ tb) .eq (ra + rb)) (P := fun σ => σ f = 1 → a.value σ = b.value σ) (by
      intro j hj
      simp only [Gen.idx, List.mem_cons, List.mem_map, List.mem_append] at hj
      rcases hj with rfl | ⟨t, ht, rfl⟩
      · exact hg.names _ _ hk
      · exact ht.elim (h2 hg t) (h6 hg t)) (by
      intro y _
      have i1 := h4 y
      have i2 := h8 y
      simp only [Gen.Ok, Sense.Rel, evalTerms_append]
      have : m.values y f = y k := by simp [Mip.values, hk]
      rw [this]
      refine imp_congr Iff.rfl ?_
      constructor <;> intro h <;> linarith)
    rwa [withLits_nil] at this

/-! ## Other constraints -/

theorem exprToArray_lits : ∀ l : List Rat, exprToArray (l.map .lit) = .ok l
  | [] => rfl
  | v :: l => by simp only [List.map_cons, exprToArray, exprToConst, Res.ok_bind, exprToArray_lits l]

theorem zip3_ok : ∀ (ks : List Nat) (ds rs : List Rat), ks.length = ds.length → ks.length = rs.length → zip3 ks ds rs = .ok (ks.zip (ds.zip rs))
  | [], ds, rs, _, _ => by
    unfold zip3
    rfl
  | k :: ks, d :: ds, r :: rs, h1, h2 => by
    simp only [zip3, zip3_ok ks ds rs (by simpa using h1) (by simpa using h2), Res.ok_bind, List.zip_cons_cons]

theorem zipDisj_ok : ∀ (us bs : List Rat) (ks : List Nat), us.length = bs.length → us.length = ks.length → zipDisj us bs ks = .ok (us.zip (bs.zip ks))
  | [], ds, rs, _, _ => by
    unfold zipDisj
    rfl
  | k :: ks, d :: ds, r :: rs, h1, h2 => by
    simp only [zipDisj, zipDisj_ok ks ds rs (by simpa using h1) (by simpa using h2), Res.ok_bind, List.zip_cons_cons]

theorem vars_spec {inf : Rat} (m : Mip) (hm : Good m) (as : List Arg) (h1 : ∀ n, .var n ∈ as → ∃ k, m.names n = some k)
    (h2 : ∀ v, .lit v ∈ as → Within inf v) : ∃ vs ks, exprToVars m as = .ok (withLits m vs, ks) ∧
      (∀ v ∈ vs, Within inf v) ∧ ks.length = as.length ∧ (∀ k ∈ ks, k < m.cols.length + vs.length) ∧
      ∀ x, LitsAt m vs x → ks.map x = as.map (Arg.value (m.values x)) := by
  have := exprToVars_spec m hm as h1 h2 []
  simpa only [withLits_nil, List.nil_append] using this

theorem map_zip_left {α β γ : Type} (f : α → γ) : ∀ (l : List α) (r : List β), (l.zip r).map (fun p => (f p.1, p.2)) = (l.map f).zip r
  | [], _ => by simp
  | _ :: _, [] => by simp
  | a :: l, b :: r => by simp [map_zip_left f l r]

theorem pCumulative_step (inf : Rat) (m : Mip) (hm : Good m) (c : Call) (s : List Arg) (d r : List Rat) (b : Rat) (h₁ : s.length = d.length)
    (h₂ : s.length = r.length) (ha : c.args = [.arr s, .arr (d.map .lit), .arr (r.map .lit), .one (.lit b)])
    (hd : ∀ n, .var n ∈ s → ∃ k, m.names n = some k) (hl : ∀ v, .lit v ∈ s → Within inf v) :
    ∃ m', pCumulative m c = .ok m' ∧ Step inf m m' (fun σ => Cumulative ((s.map (Arg.value σ)).zip (d.zip r)) b) := by
  obtain ⟨vs, ks, i1, i2, i3, i4, i5⟩ := vars_spec m hm s hd hl
  refine ⟨_, ?_, Step.gen inf m vs i2 (.cumulative (ks.zip (d.zip r)) b) ?_ ?_⟩
  · unfold pCumulative
    rw [ha]
    simp only [i1, Res.ok_bind, exprToArray_lits, exprToConst, zip3_ok ks d r (i3.trans h₁) (i3.trans h₂)]
  · intro k hk
    simp only [Gen.idx, List.mem_map] at hk
    obtain ⟨p, hp, rfl⟩ := hk
    exact i4 _ (List.of_mem_zip hp).1
  · intro x hx
    simp only [Gen.Ok]
    rw [map_zip_left x, i5 x hx]

theorem pMinimum_step (inf : Rat) (m : Mip) (hm : Good m) (c : Call) (r : Arg) (xs : List Arg) (ha : c.args = [.one r, .arr xs])
    (hd : ∀ n, .var n ∈ r :: xs → ∃ k, m.names n = some k) (hl : ∀ v, .lit v ∈ r :: xs → Within inf v) :
    ∃ m', pMinimum m c = .ok m' ∧ Step inf m m' (fun σ => Least (r.value σ) (xs.map (Arg.value σ))) := by
  obtain ⟨vs, ks, i1, i2, i3, i4, i5⟩ := vars_spec m hm (r :: xs) hd hl
  rw [exprToVars] at i1
  cases hr : exprToVar m r with
  | ok p =>
    obtain ⟨m₁, k⟩ := p
    rw [hr] at i1
    simp only [Res.ok_bind] at i1
    cases hx : exprToVars m₁ xs with
    | ok q =>
      obtain ⟨m₂, kx⟩ := q
      rw [hx] at i1
      simp only [Res.ok_bind, Res.ok.injEq, Prod.mk.injEq] at i1
      obtain ⟨rfl, rfl⟩ := i1
      refine ⟨_, ?_, Step.gen inf m vs i2 (.minimum k kx) ?_ ?_⟩
      · unfold pMinimum
        rw [ha]
        simp only [hr, hx, Res.ok_bind]
      · intro j hj
        exact i4 j hj
      · intro x hx
        have := i5 x hx
        simp only [List.map_cons, List.cons.injEq] at this
        simp only [Gen.Ok, this.1, this.2]
    | err => rw [hx] at i1; simp at i1
    | ub => rw [hx] at i1; simp at i1
  | err => rw [hr] at i1; simp at i1
  | ub => rw [hr] at i1; simp at i1

theorem pTimes_step (inf : Rat) (m : Mip) (hm : Good m) (c : Call) (x y z : Arg) (ha : c.args = [.one x, .one y, .one z])
    (hd : ∀ n, .var n ∈ [x, y, z] → ∃ k, m.names n = some k) (hl : ∀ v, .lit v ∈ [x, y, z] → Within inf v) :
    ∃ m', pTimes m c = .ok m' ∧ Step inf m m' (fun σ => x.value σ * y.value σ = z.value σ) := by
  obtain ⟨vs, ks, i1, i2, i3, i4, i5⟩ := vars_spec m hm [x, y, z] hd hl
  simp only [exprToVars] at i1
  cases hx : exprToVar m x with
  | ok p =>
    obtain ⟨m₁, k₁⟩ := p
    rw [hx] at i1
    simp only [Res.ok_bind] at i1
    cases hy : exprToVar m₁ y with
    | ok q =>
      obtain ⟨m₂, k₂⟩ := q
      rw [hy] at i1
      simp only [Res.ok_bind] at i1
      cases hz : exprToVar m₂ z with
      | ok q =>
        obtain ⟨m₃, k₃⟩ := q
        rw [hz] at i1
        simp only [Res.ok_bind, Res.ok.injEq, Prod.mk.injEq] at i1
        obtain ⟨rfl, rfl⟩ := i1
        refine ⟨_, ?_, Step.gen inf m vs i2 (.times k₁ k₂ k₃) ?_ ?_⟩
        · unfold pTimes
          rw [ha]
          simp only [hx, hy, hz, Res.ok_bind]
        · intro j hj
          exact i4 j hj
        · intro w hw
          have := i5 w hw
          simp only [List.map_cons, List.cons.injEq, List.map_nil, and_true] at this
          simp only [Gen.Ok, this.1, this.2.1, this.2.2]
      | err => rw [hz] at i1; simp at i1
      | ub => rw [hz] at i1; simp at i1
    | err => rw [hy] at i1; simp at i1
    | ub => rw [hy] at i1; simp at i1
  | err => rw [hx] at i1; simp at i1
  | ub => rw [hx] at i1; simp at i1

/-- Two arrays, one after the other. -/
theorem vars_spec2 {inf : Rat} (m : Mip) (hm : Good m) (as bs : List Arg) (h1 : ∀ n, .var n ∈ as ++ bs → ∃ k, m.names n = some k)
    (h2 : ∀ v, .lit v ∈ as ++ bs → Within inf v) : ∃ m₁ vs ka kb, exprToVars m as = .ok (m₁, ka) ∧ exprToVars m₁ bs = .ok (withLits m vs, kb) ∧
      (∀ v ∈ vs, Within inf v) ∧ ka.length = as.length ∧ kb.length = bs.length ∧ (∀ k ∈ ka ++ kb, k < m.cols.length + vs.length) ∧
      ∀ x, LitsAt m vs x → ka.map x = as.map (Arg.value (m.values x)) ∧ kb.map x = bs.map (Arg.value (m.values x)) := by
  obtain ⟨ws, ka, a1, a2, a3, a4, a5⟩ := vars_spec m hm as (fun n hn => h1 n (by simp [hn])) (fun n hn => h2 n (by simp [hn]))
  obtain ⟨vs, kb, b1, b2, b3, b4, b5⟩ := exprToVars_spec m hm bs (fun n hn => h1 n (by simp [hn])) (fun n hn => h2 n (by simp [hn])) ws
  refine ⟨_, ws ++ vs, ka, kb, a1, b1, ?_, a3, b3, ?_, ?_⟩
  · intro v hv
    simp only [List.mem_append] at hv
    exact hv.elim (a2 v) (b2 v)
  · intro k hk
    simp only [List.mem_append] at hk
    rcases hk with hk | hk
    · have := a4 k hk
      simp only [List.length_append]
      omega
    · exact b4 k hk
  · intro x hx
    refine ⟨a5 x ?_, b5 x hx⟩
    intro i v hi
    exact hx i v (by rw [List.getElem?_append_left (List.getElem?_eq_some_iff.mp hi).1, hi])

theorem pLexLesseq_step (inf : Rat) (m : Mip) (hm : Good m) (c : Call) (a b : List Arg) (t : Rat) (h : a.length = b.length)
    (ha : c.args = [.arr a, .arr b, .one (.lit t)]) (hd : ∀ n, .var n ∈ a ++ b → ∃ k, m.names n = some k) (hl : ∀ v, .lit v ∈ a ++ b → Within inf v) :
    ∃ m', pLexLesseq m c = .ok m' ∧ Step inf m m' (fun σ => LexLe ((a.map (Arg.value σ)).zip (b.map (Arg.value σ)))) := by
  obtain ⟨m₁, vs, ka, kb, i1, i2, i3, i4, i5, i6, i7⟩ := vars_spec2 m hm a b hd hl
  refine ⟨_, ?_, Step.gen inf m vs i3 (.lexLesseq (ka.zip kb) (decide (t ≠ 0))) ?_ ?_⟩
  · unfold pLexLesseq
    rw [ha]
    simp only [i1, i2, Res.ok_bind, exprToConst]
    rw [if_pos (by rw [i4, i5, h])]
  · intro k hk
    simp only [Gen.idx, List.mem_append, List.mem_map] at hk
    refine i6 k ?_
    rw [List.mem_append]
    rcases hk with ⟨p, hp, rfl⟩ | ⟨p, hp, rfl⟩
    · exact Or.inl (List.of_mem_zip hp).1
    · exact Or.inr (List.of_mem_zip hp).2
  · intro x hx
    simp only [Gen.Ok]
    have : (ka.zip kb).map (fun p => (x p.1, x p.2)) = (ka.map x).zip (kb.map x) := by
      rw [List.zip_map]
      rfl
    rw [this, (i7 x hx).1, (i7 x hx).2]

theorem toInt_natCast (n : Nat) : toInt (n : Rat) = n := by
  unfold toInt
  rw [if_pos (by positivity)]
  simp

theorem toInt_intCast (k : Int) : toInt (k : Rat) = k := by
  unfold toInt
  split_ifs <;> simp

theorem pLexChain_step (inf : Rat) (m : Mip) (hm : Good m) (c : Call) (x : List Arg) (r n : Nat) (h : 0 < r) (hx : x.length = r * n) (k : Int) (p t : Rat)
    (ha : c.args = [.arr x, .one (.lit r), .one (.lit k), .one (.lit p), .one (.lit t)]) (hd : ∀ n, .var n ∈ x → ∃ k, m.names n = some k)
    (hl : ∀ v, .lit v ∈ x → Within inf v) :
    ∃ m', pLexChain m c = .ok m' ∧ Step inf m m' (fun σ => Orbitope r n (x.map (Arg.value σ)) k) := by
  obtain ⟨vs, ks, i1, i2, i3, i4, i5⟩ := vars_spec m hm x hd hl
  have hr : (r : Rat) ≠ 0 := by
    have : (0 : Rat) < r := by exact_mod_cast h
    exact ne_of_gt this
  have hn : toInt ((ks.length : Rat) / r) = n := by
    rw [i3, hx]
    push_cast
    rw [mul_div_cancel_left₀ _ hr]
    exact toInt_natCast n
  refine ⟨_, ?_, Step.gen inf m vs i2 (.lexChain r n ks k (decide (p ≠ 0)) (decide (t ≠ 0))) ?_ ?_⟩
  · unfold pLexChain
    rw [ha]
    simp only [i1, Res.ok_bind, exprToConst]
    rw [if_neg hr, hn, toInt_natCast, toInt_intCast]
  · exact i4
  · intro y hy
    simp only [Gen.Ok, i5 y hy, Int.toNat_natCast]

theorem map_zip_zip {α β γ δ : Type} (f : γ → δ) : ∀ (u : List α) (b : List β) (k : List γ),
    (u.zip (b.zip k)).map (fun p => (p.1, p.2.1, f p.2.2)) = u.zip (b.zip (k.map f))
  | [], _, _ => by simp
  | _ :: _, [], _ => by simp
  | _ :: _, _ :: _, [] => by simp
  | a :: u, b :: bs, k :: ks => by simp [map_zip_zip f u bs ks]

theorem pBoundsDisj_step (inf : Rat) (m : Mip) (hm : Good m) (c : Call) (u b : List Rat) (x : List Arg) (uF bF : List Rat) (xF : List Arg)
    (h₁ : u.length = b.length) (h₂ : u.length = x.length) (h₃ : uF.length = bF.length) (h₄ : uF.length = xF.length)
    (ha : c.args = [.arr (u.map .lit), .arr (b.map .lit), .arr x, .arr (uF.map .lit), .arr (bF.map .lit), .arr xF])
    (hd : ∀ n, .var n ∈ x ++ xF → ∃ k, m.names n = some k) (hl : ∀ v, .lit v ∈ x ++ xF → Within inf v) :
    ∃ m', pBoundsDisj m c = .ok m' ∧
      Step inf m m' (fun σ => ∃ p ∈ u.zip (b.zip (x.map (Arg.value σ))) ++ uF.zip (bF.zip (xF.map (Arg.value σ))), BoundOk p) := by
  obtain ⟨m₁, vs, ka, kb, i1, i2, i3, i4, i5, i6, i7⟩ := vars_spec2 m hm x xF hd hl
  refine ⟨_, ?_, Step.gen inf m vs i3 (.boundsDisj (u.zip (b.zip ka)) (uF.zip (bF.zip kb))) ?_ ?_⟩
  · unfold pBoundsDisj
    rw [ha]
    simp only [i1, i2, Res.ok_bind, exprToArray_lits, zipDisj_ok u b ka h₁ (by rw [h₂, i4]), zipDisj_ok uF bF kb h₃ (by rw [h₄, i5])]
  · intro k hk
    simp only [Gen.idx, List.mem_map, List.mem_append] at hk
    refine i6 k ?_
    rw [List.mem_append]
    obtain ⟨p, hp | hp, rfl⟩ := hk
    · exact Or.inl (List.of_mem_zip (List.of_mem_zip hp).2).2
    · exact Or.inr (List.of_mem_zip (List.of_mem_zip hp).2).2
  · intro y hy
    simp only [Gen.Ok]
    rw [← (i7 y hy).1, ← (i7 y hy).2, ← map_zip_zip y, ← map_zip_zip y, ← List.map_append]
    simp only [List.mem_map]
    constructor
    · rintro ⟨p, hp, h⟩
      exact ⟨_, ⟨p, hp, rfl⟩, h⟩
    · rintro ⟨_, ⟨p, hp, rfl⟩, h⟩
      exact ⟨p, hp, h⟩

/-! ## All calls -/

theorem post_step (inf : Rat) (m : Mip) (hm : Good m) (c : Call) (hc : Covered inf (fun n => ∃ k, m.names n = some k) c) :
    ∃ m', post m c = .ok m' ∧ Step inf m m' (fun σ => c.Holds σ) := by
  obtain ⟨name, args, uc, lz⟩ := c
  obtain ⟨hu, hd, hl, he⟩ := hc
  dsimp only at hu hd hl he
  cases hu with
  | lin _ h cs xs r hl' hs =>
    have key := fun s => pLin_step inf m ⟨name, _, uc, lz⟩ s cs xs r rfl hl' hs (fun n hn => hd (.arr xs) (by simp) n hn) he
    simp only [List.mem_cons, List.not_mem_nil, or_false] at h
    have hv : ∀ σ : Nat → Rat, (cs.map Arg.lit).map (Arg.value σ) = cs := by
      intro σ
      simp [Arg.value, Function.comp_def]
    rcases h with rfl | rfl | rfl | rfl
    all_goals
      first
        | obtain ⟨m', h1, h2⟩ := key .eq
          refine ⟨m', h1, ?_⟩
          convert h2 using 2
          rename_i σ
          simp only [Call.Holds, List.map_cons, List.map_nil, Val.value, hv, Sem, LinEq, Sense.Rel, Arg.value]
          done
        | obtain ⟨m', h1, h2⟩ := key .lq
          refine ⟨m', h1, ?_⟩
          convert h2 using 2
          rename_i σ
          simp only [Call.Holds, List.map_cons, List.map_nil, Val.value, hv, Sem, LinLe, Sense.Rel, Arg.value]
  | cmp _ h a b hs =>
    have key := fun s => pNonLin_step inf m ⟨name, _, uc, lz⟩ s a b rfl hs (fun n hn => by
      rcases hn with rfl | rfl
      · exact hd (.one (.var n)) (by simp) n (by simp [Val.list])
      · exact hd (.one (.var n)) (by simp) n (by simp [Val.list])) he
    simp only [List.mem_cons, List.not_mem_nil, or_false] at h
    rcases h with rfl | rfl | rfl | rfl | rfl | rfl
    all_goals
      first
        | obtain ⟨m', h1, h2⟩ := key .eq
          refine ⟨m', h1, ?_⟩
          convert h2 using 2
          rename_i σ
          simp only [Call.Holds, List.map_cons, List.map_nil, Val.value, Sem, Equal, Sense.Rel]
          done
        | obtain ⟨m', h1, h2⟩ := key .lq
          refine ⟨m', h1, ?_⟩
          convert h2 using 2
          rename_i σ
          simp only [Call.Holds, List.map_cons, List.map_nil, Val.value, Sem, LessEq, Sense.Rel]
  | indicator _ h x b =>
    have key := pIndicatorLe0If0_step inf m hm ⟨name, _, uc, lz⟩ x b rfl (fun n hn => by
      rcases hn with rfl | rfl
      · exact hd (.one (.var n)) (by simp) n (by simp [Val.list])
      · exact hd (.one (.var n)) (by simp) n (by simp [Val.list]))
    simp only [List.mem_cons, List.not_mem_nil, or_false] at h
    rcases h with rfl | rfl <;> exact key
  | indicatorKnown _ h v hv b hb =>
    have key := pIndicatorKnown_step inf m ⟨name, _, uc, lz⟩ v b rfl hv hb
    simp only [List.mem_cons, List.not_mem_nil, or_false] at h
    rcases h with rfl | rfl <;> exact key
  | eqIf1 a b hs f =>
    exact pIndicatorEqIf1_step inf m hm ⟨"aux_float_eq_if_1__IND", _, uc, lz⟩ a b f rfl hs (fun n hn => by
      rcases hn with rfl | rfl | rfl
      · exact hd (.one (.var n)) (by simp) n (by simp [Val.list])
      · exact hd (.one (.var n)) (by simp) n (by simp [Val.list])
      · exact hd (.one (.var n)) (by simp) n (by simp [Val.list]))
  | cumulative s d r b h₁ h₂ =>
    obtain ⟨m', h1, h2⟩ := pCumulative_step inf m hm ⟨"fzn_cumulative_fixed_d_r", _, uc, lz⟩ s d r b h₁ h₂ rfl (fun n hn => hd (.arr s) (by simp) n hn)
      (fun v hv => hl (.arr s) (by simp) v hv)
    refine ⟨m', h1, ?_⟩
    convert h2 using 2
    rename_i σ
    have hv : ∀ l : List Rat, (l.map Arg.lit).map (Arg.value σ) = l := by
      intro l
      simp [Arg.value, Function.comp_def]
    simp only [Call.Holds, List.map_cons, List.map_nil, Val.value, hv, Sem, Arg.value]
  | lex a b t h =>
    exact pLexLesseq_step inf m hm ⟨"fzn_lex_lesseq__orbisack", _, uc, lz⟩ a b t h rfl (fun n hn => by
        rcases List.mem_append.mp hn with hn | hn
        · exact hd (.arr a) (by simp) n hn
        · exact hd (.arr b) (by simp) n hn) (fun n hn => by
        rcases List.mem_append.mp hn with hn | hn
        · exact hl (.arr a) (by simp) n hn
        · exact hl (.arr b) (by simp) n hn)
  | chain x r n h hx k p t =>
    obtain ⟨m', h1, h2⟩ := pLexChain_step inf m hm ⟨"fzn_lex_chain_lesseq__orbitope", _, uc, lz⟩ x r n h hx k p t rfl (fun n hn => hd (.arr x) (by simp) n hn)
      (fun v hv => hl (.arr x) (by simp) v hv)
    refine ⟨m', h1, ?_⟩
    convert h2 using 2
    rename_i σ
    simp only [Call.Holds, List.map_cons, List.map_nil, Val.value, Sem, Arg.value, List.length_map, hx, Int.floor_natCast, Int.floor_intCast,
      Int.toNat_natCast, Nat.mul_div_cancel_left n h]
  | disj u b x uF bF xF h₁ h₂ h₃ h₄ =>
    obtain ⟨m', h1, h2⟩ := pBoundsDisj_step inf m hm ⟨"bounds_disj", _, uc, lz⟩ u b x uF bF xF h₁ h₂ h₃ h₄ rfl (fun n hn => by
        rcases List.mem_append.mp hn with hn | hn
        · exact hd (.arr x) (by simp) n hn
        · exact hd (.arr xF) (by simp) n hn) (fun n hn => by
        rcases List.mem_append.mp hn with hn | hn
        · exact hl (.arr x) (by simp) n hn
        · exact hl (.arr xF) (by simp) n hn)
    refine ⟨m', h1, ?_⟩
    convert h2 using 2
    rename_i σ
    have hv : ∀ l : List Rat, (l.map Arg.lit).map (Arg.value σ) = l := by
      intro l
      simp [Arg.value, Function.comp_def]
    simp only [Call.Holds, List.map_cons, List.map_nil, Val.value, hv, Sem]
  | minimum r x =>
    exact pMinimum_step inf m hm ⟨"fzn_array_float_minimum", _, uc, lz⟩ r x rfl (fun n hn => by
        rcases List.mem_cons.mp hn with hn | hn
        · exact hd (.one r) (by simp) n (by simp [Val.list, hn])
        · exact hd (.arr x) (by simp) n hn) (fun n hn => by
        rcases List.mem_cons.mp hn with hn | hn
        · exact hl (.one r) (by simp) n (by simp [Val.list, hn])
        · exact hl (.arr x) (by simp) n hn)
  | times _ h x y z =>
    have key := pTimes_step inf m hm ⟨name, _, uc, lz⟩ x y z rfl (fun n hn => by
        simp only [List.mem_cons, List.not_mem_nil, or_false] at hn
        rcases hn with hn | hn | hn
        · exact hd (.one x) (by simp) n (by simp [Val.list, hn])
        · exact hd (.one y) (by simp) n (by simp [Val.list, hn])
        · exact hd (.one z) (by simp) n (by simp [Val.list, hn])) (fun n hn => by
        simp only [List.mem_cons, List.not_mem_nil, or_false] at hn
        rcases hn with hn | hn | hn
        · exact hl (.one x) (by simp) n (by simp [Val.list, hn])
        · exact hl (.one y) (by simp) n (by simp [Val.list, hn])
        · exact hl (.one z) (by simp) n (by simp [Val.list, hn]))
    simp only [List.mem_cons, List.not_mem_nil, or_false] at h
    rcases h with rfl | rfl <;> exact key

theorem postAll_step (inf : Rat) : ∀ (cs : List Call) (m : Mip), Good m → (∀ c ∈ cs, Covered inf (fun n => ∃ k, m.names n = some k) c) →
    ∃ m', postAll cs m = .ok m' ∧ Step inf m m' (fun σ => ∀ c ∈ cs, c.Holds σ)
  | [], m, _, _ => ⟨m, rfl, Step.refl inf m (by simp)⟩
  | c :: cs, m, hm, hc => by
    obtain ⟨m₁, h1, h2⟩ := post_step inf m hm c (hc c (by simp))
    obtain ⟨m₂, h3, h4⟩ := postAll_step inf cs m₁ (h2.good hm) (fun c' h' => by
      rw [h2.names]
      exact hc c' (by simp [h']))
    refine ⟨m₂, by simp only [postAll, h1, Res.ok_bind, h3], ?_⟩
    convert h2.trans h4 using 2
    simp

end MipInst
end MZ
