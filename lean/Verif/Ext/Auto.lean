import Verif.Ext.Model
import Verif.LexOrd.Lex

/-! # Lemmas on automata -/

namespace MZ.Ext
open MZ.Globals MZ.LexOrd MZ.LexOrd.Spec MZ.Ext.Spec

theorem elems_cons {α : Type} (lo hi : Int) (f : Int → α) (h : lo ≤ hi) :
    elems ⟨lo, hi, f⟩ = f lo :: elems ⟨lo + 1, hi, f⟩ := by
  unfold elems
  dsimp only
  rw [show (hi - lo + 1).toNat = (hi - (lo + 1) + 1).toNat + 1 by omega, List.range_succ_eq_map]
  simp only [List.map_cons, List.map_map, List.cons.injEq]
  refine ⟨by simp, List.map_congr_left ?_⟩
  intro k _
  simp only [Function.comp]
  congr 1
  push_cast
  omega

theorem elems_done {α : Type} (lo hi : Int) (f : Int → α) (h : hi < lo) : elems ⟨lo, hi, f⟩ = [] := by
  unfold elems
  dsimp only
  rw [show (hi - lo + 1).toNat = 0 by omega]
  rfl

/-- A run of an automaton along a list. -/
def runL {σ : Type} (next : σ → Int → σ → Prop) (final : σ → Prop) : σ → List Int → Prop
  | s, [] => final s
  | s, x :: w => ∃ s', next s x s' ∧ runL next final s' w

theorem run_iff {σ : Type} (next : σ → Int → σ → Prop) (final : σ → Prop) (dom : σ → Prop) (f : Int → Int) (hi : Int)
    (n : Nat) : ∀ (lo : Int) (s : σ), (hi - lo + 1).toNat = n → lo ≤ hi + 1 →
    (hasRun ⟨lo, hi, f⟩ dom s next final ↔
      dom s ∧ runL (fun s x s' => next s x s' ∧ dom s') final s (elems ⟨lo, hi, f⟩)) := by
  induction n with
  | zero =>
    intro lo s hn hl
    have e : hi + 1 = lo := by omega
    rw [elems_done _ _ _ (by omega)]
    simp only [hasRun, runL, Arr.mem_idx, e]
    constructor
    · rintro ⟨a, h1, h2, -, h4⟩
      rw [← h2]
      exact ⟨h1 lo (by omega) (by omega), h4⟩
    · rintro ⟨h1, h2⟩
      exact ⟨fun _ => s, fun _ _ _ => h1, rfl, fun i hi => by omega, h2⟩
  | succ n ih =>
    intro lo s hn hl
    rw [elems_cons _ _ _ (by omega)]
    simp only [runL]
    constructor
    · rintro ⟨a, h1, h2, h3, h4⟩
      simp only [Arr.mem_idx] at h1 h2 h3 h4
      refine ⟨h2 ▸ h1 lo (by omega) (by omega), a (lo + 1), ⟨?_, h1 _ (by omega) (by omega)⟩, ?_⟩
      · have := h3 lo (by omega)
        rwa [h2] at this
      · refine ((ih (lo + 1) (a (lo + 1)) (by omega) (by omega)).1 ⟨a, ?_, rfl, ?_, h4⟩).2
        · intro i q1 q2; exact h1 i (by dsimp only at q1; omega) q2
        · intro i hi'
          simp only [Arr.mem_idx] at hi'
          exact h3 i (by omega)
    · rintro ⟨h1, s', ⟨h2, h2'⟩, h3⟩
      obtain ⟨a, q1, q2, q3, q4⟩ := (ih (lo + 1) s' (by omega) (by omega)).2 ⟨h2', h3⟩
      simp only [Arr.mem_idx] at q1 q2 q3 q4
      refine ⟨fun i => if i = lo then s else a i, ?_, by simp, ?_, ?_⟩
      · intro i w1 w2
        simp only at w1 w2 ⊢
        split
        · exact h1
        · exact q1 i (by omega) w2
      · intro i hi'
        simp only [Arr.mem_idx] at hi' ⊢
        rw [if_neg (by omega : ¬ i + 1 = lo)]
        by_cases c : i = lo
        · rw [if_pos c, c, q2]; exact h2
        · rw [if_neg c]; exact q3 i (by omega)
      · simp only
        rw [if_neg (by omega)]
        exact q4

theorem hasRun_iff {σ : Type} (next : σ → Int → σ → Prop) (final dom : σ → Prop) (xs : Arr Int) (s : σ)
    (h : xs.lo ≤ xs.hi + 1) : hasRun xs dom s next final ↔
      dom s ∧ runL (fun s x s' => next s x s' ∧ dom s') final s (elems xs) :=
  run_iff next final dom xs.val xs.hi _ xs.lo s rfl h

theorem lo_le_hi {α : Type} {xs : Arr α} (h : xs.len ≠ 0) : xs.lo ≤ xs.hi := by
  by_contra c
  apply h
  unfold Arr.len Arr.idx
  rw [Finset.Icc_eq_empty c]; rfl

theorem runL_dfa {Q sl su : Int} {d : Mat Int} {q0 : Int} {F : Finset Int} (ok : regularOk Q sl su d q0 F)
    (w : List Int) : ∀ q, 1 ≤ q → q ≤ Q →
    (runL (fun s x s' => ((sl ≤ x ∧ x ≤ su) ∧ Entry d s x s') ∧ 1 ≤ s' ∧ s' ≤ Q) (· ∈ F) q w ↔
      Accepts (stepOf d.val (fun x => sl ≤ x ∧ x ≤ su)) F q w) := by
  obtain ⟨_, _, ⟨e1, e2, e3, e4⟩, hd, _, _⟩ := ok
  induction w with
  | nil => intro q _ _; simp [runL, Accepts]
  | cons x w ih =>
    intro q h1 h2
    simp only [runL, Accepts]
    constructor
    · rintro ⟨s', ⟨⟨hx, _, _, _, _, rfl⟩, h3, h4⟩, h5⟩
      exact ⟨_, if_pos ⟨hx, by omega⟩, (ih _ h3 h4).1 h5⟩
    · rintro ⟨q', h3, h4⟩
      unfold stepOf at h3
      split at h3
      · rename_i hc
        simp only [Option.some.injEq] at h3
        subst h3
        have := hd q x h1 h2 hc.1.1 hc.1.2
        have h5 : 1 ≤ d.val q x := by have := hc.2; omega
        exact ⟨_, ⟨⟨hc.1, by omega, by omega, by omega, by omega, rfl⟩, h5, this.2⟩, (ih _ h5 this.2).2 h4⟩
      · cases h3

theorem fznRegular_iff {Q S : Int} {d : Mat Int} {q0 : Int} {F : Finset Int} (ok : regularOk Q 1 S d q0 F)
    (xs : Arr Int) : fznRegular xs Q S d q0 F ↔ Accepts (stepOf d.val (fun x => 1 ≤ x ∧ x ≤ S)) F q0 (elems xs) := by
  unfold fznRegular
  by_cases h : xs.len = 0
  · rw [if_pos h, elems_nil h]; rfl
  · rw [if_neg h, hasRun_iff _ _ _ _ _ (by have := lo_le_hi h; omega),
      runL_dfa ok _ _ ok.2.2.2.2.1.1 ok.2.2.2.2.1.2]
    exact ⟨fun h => h.2, fun h' => ⟨ok.2.2.2.2.1, h'⟩⟩

theorem fznRegularSet_iff {Q sl su : Int} {d : Mat Int} {q0 : Int} {F : Finset Int} (ok : regularOk Q sl su d q0 F)
    (xs : Arr Int) (hx : xs.idx.Nonempty) :
    fznRegularSet xs Q sl su d q0 F ↔ Accepts (stepOf d.val (fun x => sl ≤ x ∧ x ≤ su)) F q0 (elems xs) := by
  unfold fznRegularSet
  obtain ⟨i, hi⟩ := hx
  have := (Arr.mem_idx _ _).1 hi
  rw [hasRun_iff _ _ _ _ _ (by omega), runL_dfa ok _ _ ok.2.2.2.2.1.1 ok.2.2.2.2.1.2]
  exact ⟨fun h => h.2.2, fun h' => ⟨⟨i, hi⟩, ok.2.2.2.2.1, h'⟩⟩

/-! ## Reification -/

theorem runL_reif {Q sl su : Int} {d : Mat Int} {q0 : Int} {F : Finset Int} (ok : regularOk Q sl su d q0 F) (b : Prop)
    (w : List Int) : ∀ q, 0 ≤ q → q ≤ Q →
    (runL (fun s x s' => (if sl ≤ x ∧ x ≤ su then
        Entry ⟨0, Q, sl, su, fun r c => if r = 0 then 0 else d.val r c⟩ s x s' else s' = 0) ∧ 0 ≤ s' ∧ s' ≤ Q)
        (fun s => b ↔ s ∈ F) q w ↔
      (b ↔ (q ≠ 0 ∧ Accepts (stepOf d.val (fun x => sl ≤ x ∧ x ≤ su)) F q w))) := by
  obtain ⟨hQ, _, ⟨e1, e2, e3, e4⟩, hd, _, hF⟩ := ok
  induction w with
  | nil =>
    intro q h1 _
    simp only [runL, Accepts]
    have : q ∈ F ↔ (q ≠ 0 ∧ q ∈ F) := ⟨fun h => ⟨by have := hF q h; omega, h⟩, fun h => h.2⟩
    rw [← this]
  | cons x w ih =>
    intro q h1 h2
    simp only [runL]
    have key : ∃ t, (0 ≤ t ∧ t ≤ Q) ∧ (∀ s', ((if sl ≤ x ∧ x ≤ su then
        Entry ⟨0, Q, sl, su, fun r c => if r = 0 then 0 else d.val r c⟩ q x s' else s' = 0) ↔ s' = t)) ∧
        (q ≠ 0 ∧ Accepts (stepOf d.val (fun x => sl ≤ x ∧ x ≤ su)) F q (x :: w) ↔
          t ≠ 0 ∧ Accepts (stepOf d.val (fun x => sl ≤ x ∧ x ≤ su)) F t w) := by
      by_cases hx : sl ≤ x ∧ x ≤ su
      · refine ⟨if q = 0 then 0 else d.val q x, ?_, ?_, ?_⟩
        · split
          · omega
          · exact hd q x (by omega) h2 hx.1 hx.2
        · intro s'
          rw [if_pos hx]
          simp only [Entry]
          exact ⟨fun h => h.2.2.2.2, fun h => ⟨h1, h2, hx.1, hx.2, h⟩⟩
        · by_cases c : q = 0
          · simp [c]
          · simp only [if_neg c, Accepts, stepOf]
            constructor
            · rintro ⟨-, q', h3, h4⟩
              split at h3
              · rename_i hc
                simp only [Option.some.injEq] at h3
                subst h3
                exact ⟨hc.2, h4⟩
              · cases h3
            · rintro ⟨h3, h4⟩
              exact ⟨c, _, if_pos ⟨hx, h3⟩, h4⟩
      · refine ⟨0, by omega, ?_, ?_⟩
        · intro s'
          rw [if_neg hx]
        · simp only [Accepts, stepOf]
          constructor
          · rintro ⟨-, q', h3, h4⟩
            rw [if_neg (fun h => hx h.1)] at h3
            cases h3
          · rintro ⟨h, -⟩; exact absurd rfl h
    obtain ⟨t, ht, h3, h4⟩ := key
    rw [h4, ← ih t ht.1 ht.2]
    constructor
    · rintro ⟨s', ⟨h5, -⟩, h6⟩
      rw [h3] at h5
      rwa [← h5]
    · intro h
      exact ⟨t, ⟨(h3 t).2 rfl, ht⟩, h⟩

theorem regularReif_iff {Q sl su : Int} {d : Mat Int} {q0 : Int} {F : Finset Int} (ok : regularOk Q sl su d q0 F)
    (xs : Arr Int) (b : Prop) : regularReif xs Q sl su d q0 F b ↔
      (b ↔ Accepts (stepOf d.val (fun x => sl ≤ x ∧ x ≤ su)) F q0 (elems xs)) := by
  unfold regularReif
  have hq := ok.2.2.2.2.1
  by_cases h : xs.len = 0
  · rw [if_pos h, elems_nil h]; rfl
  · rw [if_neg h]
    dsimp only
    rw [hasRun_iff _ _ _ _ _ (by have := lo_le_hi h; omega), runL_reif ok b _ q0 (by omega) hq.2]
    have : q0 ≠ 0 := by omega
    simp only [this, ne_eq, not_false_eq_true, true_and]
    exact ⟨fun h => h.2, fun h => ⟨⟨by omega, hq.2⟩, h⟩⟩

theorem elems_snoc {α : Type} (xs : Arr α) (z : α) : elems (snoc xs z) = elems xs ++ [z] := by
  have h1 := len_eq_length xs
  have h2 := length_elems xs
  apply List.ext_getElem
  · rw [length_elems (snoc xs z)]
    simp only [snoc, List.length_append, List.length_singleton]
    omega
  · intro k q1 q2
    rw [getElem_elems]
    simp only [snoc]
    rw [List.getElem_append]
    by_cases h : k < (elems xs).length
    · rw [dif_pos h, if_pos (by omega), getElem_elems]
      congr 1; omega
    · rw [dif_neg h, if_neg (by omega)]
      simp

theorem len_snoc {α : Type} (xs : Arr α) (z : α) : (snoc xs z).len = xs.len + 1 := by
  rw [len_eq_length, elems_snoc, len_eq_length]
  simp

theorem aug_mark {Q sl su : Int} {d : Mat Int} {F : Finset Int} (b : Prop) [Decidable b] (q : Int) (h : q ≤ Q) :
    (augmented Q sl su d F).val q (su + 1 + b2i b) = if b ↔ q ∈ F then Q + 1 else 0 := by
  simp only [augmented]
  rw [if_pos h, if_neg (by have := b2i_nonneg b; omega)]
  by_cases c : b <;> by_cases c' : q ∈ F <;> simp [c, c', b2i]

theorem aug_mark_dead {Q sl su : Int} {d : Mat Int} {F : Finset Int} (b : Prop) [Decidable b] :
    (augmented Q sl su d F).val (Q + 2) (su + 1 + b2i b) = if b then 0 else Q + 1 := by
  simp only [augmented]
  rw [if_neg (by omega), if_pos trivial, if_neg (by have := b2i_nonneg b; omega)]
  by_cases c : b <;> simp [c, b2i]

theorem runL_aug {Q sl su : Int} {d : Mat Int} {q0 : Int} {F : Finset Int} (ok : regularOk Q sl su d q0 F) (b : Prop)
    [Decidable b] (w : List Int) (hw : ∀ x ∈ w, sl ≤ x ∧ x ≤ su) :
    (∀ q, 1 ≤ q → q ≤ Q →
      (runL (fun s x s' => ((sl ≤ x ∧ x ≤ su + 2) ∧ Entry (augmented Q sl su d F) s x s') ∧ 1 ≤ s' ∧ s' ≤ Q + 2)
          (· ∈ ({Q + 1} : Finset Int)) q (w ++ [su + 1 + b2i b]) ↔
        (b ↔ Accepts (stepOf d.val (fun x => sl ≤ x ∧ x ≤ su)) F q w))) ∧
    (runL (fun s x s' => ((sl ≤ x ∧ x ≤ su + 2) ∧ Entry (augmented Q sl su d F) s x s') ∧ 1 ≤ s' ∧ s' ≤ Q + 2)
          (· ∈ ({Q + 1} : Finset Int)) (Q + 2) (w ++ [su + 1 + b2i b]) ↔ ¬ b) := by
  obtain ⟨hQ, hS, ⟨e1, e2, e3, e4⟩, hd, _, hF⟩ := ok
  induction w with
  | nil =>
    have hb : b2i b = 0 ∨ b2i b = 1 := by unfold b2i; split <;> simp
    have key : ∀ q, 1 ≤ q → q ≤ Q + 2 →
        (runL (fun s x s' => ((sl ≤ x ∧ x ≤ su + 2) ∧ Entry (augmented Q sl su d F) s x s') ∧ 1 ≤ s' ∧ s' ≤ Q + 2)
          (· ∈ ({Q + 1} : Finset Int)) q ([] ++ [su + 1 + b2i b]) ↔
        (augmented Q sl su d F).val q (su + 1 + b2i b) = Q + 1) := by
      intro q h1 h2
      rw [List.nil_append]
      simp only [runL, Finset.mem_singleton]
      constructor
      · rintro ⟨s', ⟨⟨-, h3⟩, -⟩, h4⟩
        rw [← h3.2.2.2.2, h4]
      · intro h
        exact ⟨Q + 1, ⟨⟨⟨by omega, by omega⟩, h1, h2, by simp only [augmented]; omega, by simp only [augmented]; omega,
          h.symm⟩, by omega, by omega⟩, rfl⟩
    constructor
    · intro q h1 h2
      rw [key q h1 (by omega), aug_mark b q h2]
      simp only [Accepts]
      split
      · rename_i c; simp [c]
      · rename_i c
        constructor
        · intro h; omega
        · intro h; exact absurd h c
    · rw [key _ (by omega) (by omega), aug_mark_dead]
      split
      · rename_i c
        simp only [c, not_true, iff_false]
        omega
      · rename_i c; simp [c]
  | cons x w ih =>
    obtain ⟨ih1, ih2⟩ := ih (fun y hy => hw y (List.mem_cons_of_mem _ hy))
    have hx := hw x List.mem_cons_self
    constructor
    · intro q h1 h2
      rw [List.cons_append]
      simp only [runL, Accepts]
      have hdq := hd q x h1 h2 hx.1 hx.2
      by_cases c : d.val q x = 0
      · rw [show (b ↔ ∃ q', stepOf d.val (fun x => sl ≤ x ∧ x ≤ su) q x = some q' ∧
            Accepts (stepOf d.val fun x => sl ≤ x ∧ x ≤ su) F q' w) ↔ ¬ b by simp [stepOf, c], ← ih2]
        constructor
        · rintro ⟨s', ⟨⟨-, h3⟩, -⟩, h4⟩
          simp only [Entry, augmented, if_pos h2, if_pos hx.2, if_pos c] at h3
          rw [h3.2.2.2.2] at h4; exact h4
        · intro h4
          refine ⟨Q + 2, ⟨⟨⟨hx.1, by omega⟩, ?_⟩, by omega, by omega⟩, h4⟩
          simp only [Entry, augmented, if_pos h2, if_pos hx.2, if_pos c]
          exact ⟨h1, by omega, hx.1, by omega, trivial⟩
      · rw [show (∃ q', stepOf d.val (fun x => sl ≤ x ∧ x ≤ su) q x = some q' ∧
            Accepts (stepOf d.val fun x => sl ≤ x ∧ x ≤ su) F q' w) ↔
            Accepts (stepOf d.val fun x => sl ≤ x ∧ x ≤ su) F (d.val q x) w by simp [stepOf, c, hx],
          ← ih1 _ (by omega) hdq.2]
        constructor
        · rintro ⟨s', ⟨⟨-, h3⟩, -⟩, h4⟩
          simp only [Entry, augmented, if_pos h2, if_pos hx.2, if_neg c] at h3
          rw [h3.2.2.2.2] at h4; exact h4
        · intro h4
          refine ⟨d.val q x, ⟨⟨⟨hx.1, by omega⟩, ?_⟩, by omega, by omega⟩, h4⟩
          simp only [Entry, augmented, if_pos h2, if_pos hx.2, if_neg c]
          exact ⟨h1, by omega, hx.1, by omega, trivial⟩
    · rw [List.cons_append, ← ih2]
      simp only [runL]
      constructor
      · rintro ⟨s', ⟨⟨-, h3⟩, -⟩, h4⟩
        simp only [Entry, augmented] at h3
        rw [if_neg (by omega), if_pos trivial, if_pos hx.2] at h3
        rw [h3.2.2.2.2] at h4; exact h4
      · intro h4
        refine ⟨Q + 2, ⟨⟨⟨hx.1, by omega⟩, ?_⟩, by omega, by omega⟩, h4⟩
        simp only [Entry, augmented]
        rw [if_neg (by omega), if_pos trivial, if_pos hx.2]
        exact ⟨by omega, by omega, hx.1, by omega, rfl⟩

theorem mem_elems {α : Type} {xs : Arr α} {P : α → Prop} (h : ∀ i ∈ xs.idx, P (xs i)) : ∀ x ∈ elems xs, P x := by
  intro x hx
  simp only [elems, List.mem_map, List.mem_range] at hx
  obtain ⟨k, hk, rfl⟩ := hx
  exact h _ ((Arr.mem_idx _ _).2 (by omega))

theorem regularReifNative_iff {Q S : Int} {d : Mat Int} {q0 : Int} {F : Finset Int} (ok : regularOk Q 1 S d q0 F)
    (xs : Arr Int) (hx : ∀ i ∈ xs.idx, 1 ≤ xs i ∧ xs i ≤ S) (b : Prop) [Decidable b] :
    regularReifNative xs Q S d q0 F b ↔
      (b ↔ Accepts (stepOf d.val (fun x => 1 ≤ x ∧ x ≤ S)) F q0 (elems xs)) := by
  unfold regularReifNative fznRegular
  have h0 := len_nonneg xs
  have hq := ok.2.2.2.2.1
  rw [if_neg (by rw [len_snoc]; omega), hasRun_iff _ _ _ _ _ (by simp only [snoc]; omega), elems_snoc,
    (runL_aug ok b _ (mem_elems hx)).1 q0 hq.1 hq.2]
  exact ⟨fun h => h.2, fun h => ⟨⟨hq.1, by omega⟩, h⟩⟩

theorem regularSetReifNative_iff {Q sl su : Int} {d : Mat Int} {q0 : Int} {F : Finset Int}
    (ok : regularOk Q sl su d q0 F)
    (xs : Arr Int) (hx : ∀ i ∈ xs.idx, sl ≤ xs i ∧ xs i ≤ su) (b : Prop) [Decidable b] :
    regularSetReifNative xs Q sl su d q0 F b ↔
      (b ↔ Accepts (stepOf d.val (fun x => sl ≤ x ∧ x ≤ su)) F q0 (elems xs)) := by
  unfold regularSetReifNative fznRegularSet
  have h0 := len_nonneg xs
  have hq := ok.2.2.2.2.1
  rw [hasRun_iff _ _ _ _ _ (by simp only [snoc]; omega), elems_snoc,
    (runL_aug ok b _ (mem_elems hx)).1 q0 hq.1 hq.2]
  refine ⟨fun h => h.2.2, fun h => ⟨⟨1, ?_⟩, ⟨hq.1, by omega⟩, h⟩⟩
  rw [Arr.mem_idx]
  simp only [snoc]
  omega

/-! ## Nondeterministic automata and costs -/

theorem runL_nfa {Q sl su : Int} {d : Mat (Finset Int)} {q0 : Int} {F : Finset Int} (ok : regularNfaOk Q sl su d q0 F)
    (w : List Int) : ∀ q, 1 ≤ q → q ≤ Q →
    (runL (fun s x s' => ((sl ≤ x ∧ x ≤ su) ∧ ∃ t, Entry d s x t ∧ s' ∈ t) ∧ 1 ≤ s' ∧ s' ≤ Q) (· ∈ F) q w ↔
      AcceptsN (fun q x => if sl ≤ x ∧ x ≤ su then d.val q x else ∅) F q w) := by
  obtain ⟨_, _, ⟨e1, e2, e3, e4⟩, hd, _, _⟩ := ok
  induction w with
  | nil => intro q _ _; simp [runL, AcceptsN]
  | cons x w ih =>
    intro q h1 h2
    simp only [runL, AcceptsN]
    constructor
    · rintro ⟨s', ⟨⟨hx, t, ⟨_, _, _, _, rfl⟩, h5⟩, h3, h4⟩, h6⟩
      exact ⟨s', by rwa [if_pos hx], (ih _ h3 h4).1 h6⟩
    · rintro ⟨q', h3, h4⟩
      split at h3
      · rename_i hx
        have := hd q x h1 h2 hx.1 hx.2 _ h3
        exact ⟨q', ⟨⟨hx, _, ⟨by omega, by omega, by omega, by omega, rfl⟩, h3⟩, this⟩, (ih _ this.1 this.2).2 h4⟩
      · simp at h3

theorem fznRegularNfa_iff {Q sl su : Int} {d : Mat (Finset Int)} {q0 : Int} {F : Finset Int}
    (ok : regularNfaOk Q sl su d q0 F) (xs : Arr Int) : fznRegularNfa xs Q sl su d q0 F ↔
      AcceptsN (fun q x => if sl ≤ x ∧ x ≤ su then d.val q x else ∅) F q0 (elems xs) := by
  unfold fznRegularNfa
  by_cases h : xs.len = 0
  · rw [if_pos h, elems_nil h]; rfl
  · rw [if_neg h, hasRun_iff _ _ _ _ _ (by have := lo_le_hi h; omega),
      runL_nfa ok _ _ ok.2.2.2.2.1.1 ok.2.2.2.2.1.2]
    exact ⟨fun h => h.2, fun h' => ⟨ok.2.2.2.2.1, h'⟩⟩

theorem runL_cost {Q S : Int} {d cost : Mat Int} {q0 : Int} {F : Finset Int} (ok : regularOk Q 1 S d q0 F)
    (hc : cost.lo1 = 1 ∧ cost.hi1 = Q ∧ cost.lo2 = 1 ∧ cost.hi2 = S) (total : Int)
    (w : List Int) : ∀ q c, 1 ≤ q → q ≤ Q →
    (runL (fun (s : Int × Int) x s' => ((1 ≤ x ∧ x ≤ S) ∧ Entry d s.1 x s'.1 ∧ ∃ c, Entry cost s.1 x c ∧ s'.2 = c + s.2) ∧
        1 ≤ s'.1 ∧ s'.1 ≤ Q) (fun s => s.1 ∈ F ∧ total = s.2) (q, c) w ↔
      AcceptsCost (stepOf d.val (fun x => 1 ≤ x ∧ x ≤ S)) cost.val F q w (total - c)) := by
  obtain ⟨_, _, ⟨e1, e2, e3, e4⟩, hd, _, _⟩ := ok
  obtain ⟨c1, c2, c3, c4⟩ := hc
  induction w with
  | nil =>
    intro q c _ _
    simp only [runL, AcceptsCost]
    constructor
    · rintro ⟨h1, h2⟩; exact ⟨h1, by omega⟩
    · rintro ⟨h1, h2⟩; exact ⟨h1, by omega⟩
  | cons x w ih =>
    intro q c h1 h2
    simp only [runL, AcceptsCost]
    constructor
    · rintro ⟨⟨s', c'⟩, ⟨⟨hx, ⟨_, _, _, _, h3⟩, k, ⟨_, _, _, _, h4⟩, h5⟩, h6, h7⟩, h8⟩
      simp only at h3 h4 h5 h6 h7 h8
      subst h3
      rw [ih _ _ h6 h7] at h8
      refine ⟨_, if_pos ⟨hx, by omega⟩, ?_⟩
      rw [show total - c - cost.val q x = total - c' by omega]
      exact h8
    · rintro ⟨q', h3, h4⟩
      unfold stepOf at h3
      split at h3
      · rename_i hc
        simp only [Option.some.injEq] at h3
        subst h3
        have := hd q x h1 h2 hc.1.1 hc.1.2
        have h5 : 1 ≤ d.val q x := by have := hc.2; omega
        refine ⟨(d.val q x, cost.val q x + c), ⟨⟨hc.1, ⟨by omega, by omega, by omega, by omega, rfl⟩, _,
          ⟨by omega, by omega, by omega, by omega, rfl⟩, rfl⟩, h5, this.2⟩, ?_⟩
        rw [ih _ _ h5 this.2, show total - (cost.val q x + c) = total - c - cost.val q x by omega]
        exact h4
      · cases h3

theorem fznCostRegular_iff {Q S : Int} {d cost : Mat Int} {q0 : Int} {F : Finset Int} (ok : regularOk Q 1 S d q0 F)
    (hc : cost.lo1 = 1 ∧ cost.hi1 = Q ∧ cost.lo2 = 1 ∧ cost.hi2 = S) (total : Int) (xs : Arr Int) :
    fznCostRegular xs Q S d q0 F cost total ↔
      AcceptsCost (stepOf d.val (fun x => 1 ≤ x ∧ x ≤ S)) cost.val F q0 (elems xs) total := by
  unfold fznCostRegular
  by_cases h : xs.len = 0
  · rw [if_pos h, elems_nil h]; simp only [AcceptsCost]; exact And.comm
  · rw [if_neg h, hasRun_iff _ _ _ _ _ (by have := lo_le_hi h; omega),
      runL_cost ok hc total _ _ _ ok.2.2.2.2.1.1 ok.2.2.2.2.1.2, show total - 0 = total by omega]
    exact ⟨fun h => h.2, fun h' => ⟨ok.2.2.2.2.1, h'⟩⟩

end MZ.Ext
