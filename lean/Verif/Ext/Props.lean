import Verif.Ext.CostMdd
import Verif.Ext.Table

/-! # C76: extensional constraints -/

namespace MZ.Ext
open MZ.Globals MZ.LexOrd MZ.LexOrd.Spec MZ.Ext.Spec

/-- **C76.** `regular` over the symbols `1..S` holds exactly for the sequences that the automaton accepts. -/
theorem _root_.MZ.C76_regular (xs : Arr Int) (Q S : Int) (d : Mat Int) (q0 : Int) (F : Finset Int) (c : Prop)
    (h : regular xs Q S d q0 F = some c) :
    c ↔ Accepts (stepOf d.val (fun x => 1 ≤ x ∧ x ≤ S)) F q0 (elems xs) := by
  unfold regular at h
  split at h
  · rename_i ok
    simp only [Option.some.injEq] at h
    subst h
    exact fznRegular_iff ok xs
  · cases h

/-- **C76, partial.** `regular` over a range of symbols; missing is the empty sequence when the range does not start
at 1, see `C76_regular_set_fails`. -/
theorem _root_.MZ.C76_regular_set_partial (xs : Arr Int) (Q sl su : Int) (d : Mat Int) (q0 : Int) (F : Finset Int)
    (c : Prop) (h : regularSet xs Q sl su d q0 F = some c) (hx : xs.idx.Nonempty ∨ sl = 1) :
    c ↔ Accepts (stepOf d.val (fun x => sl ≤ x ∧ x ≤ su)) F q0 (elems xs) := by
  unfold regularSet at h
  split at h
  · rename_i ok
    simp only [Option.some.injEq] at h
    subst h
    split
    · rename_i e
      subst e
      exact fznRegular_iff ok xs
    · rename_i e
      exact fznRegularSet_iff ok xs (hx.resolve_right e)
  · cases h

/-- The empty sequence is rejected although the start state is accepting. -/
theorem _root_.MZ.C76_regular_set_fails : ∃ (xs : Arr Int) (Q sl su : Int) (d : Mat Int) (q0 : Int) (F : Finset Int)
    (c : Prop), regularSet xs Q sl su d q0 F = some c ∧ ¬ c ∧
      Accepts (stepOf d.val (fun x => sl ≤ x ∧ x ≤ su)) F q0 (elems xs) := by
  refine ⟨⟨1, 0, fun i => i⟩, 1, 0, 1, ⟨1, 1, 0, 1, fun _ _ => 1⟩, 1, {1}, _, if_pos ?_, ?_, ?_⟩
  · refine ⟨by decide, by decide, by decide, ?_, by decide, by decide⟩
    intros; dsimp only; omega
  · rw [if_neg (by decide)]
    rintro ⟨⟨i, hi⟩, _⟩
    rw [Arr.mem_idx] at hi
    dsimp only at hi; omega
  · show Accepts _ _ _ []
    simp [Accepts]

/-- `regular_nfa` over a range of symbols holds exactly for the sequences for which some run is accepting. -/
theorem _root_.MZ.C76_regular_nfa (xs : Arr Int) (Q sl su : Int) (d : Mat (Finset Int)) (q0 : Int) (F : Finset Int)
    (c : Prop) (h : regularNfa xs Q sl su d q0 F = some c) :
    c ↔ AcceptsN (fun q x => if sl ≤ x ∧ x ≤ su then d.val q x else ∅) F q0 (elems xs) := by
  unfold regularNfa at h
  split at h
  · rename_i ok
    simp only [Option.some.injEq] at h
    subst h
    exact fznRegularNfa_iff ok xs
  · cases h

/-- `cost_regular` holds exactly for accepted sequences and the sum of the costs of their transitions. -/
theorem _root_.MZ.C76_cost_regular (xs : Arr Int) (Q S : Int) (d : Mat Int) (q0 : Int) (F : Finset Int) (cost : Mat Int)
    (total : Int) (c : Prop) (h : costRegular xs Q S d q0 F cost total = some c) :
    c ↔ AcceptsCost (stepOf d.val (fun x => 1 ≤ x ∧ x ≤ S)) cost.val F q0 (elems xs) total := by
  unfold costRegular at h
  split at h
  · rename_i ok
    simp only [Option.some.injEq] at h
    subst h
    exact fznCostRegular_iff ok.1 ok.2 total xs
  · cases h

/-- The reified constraint (both symbol versions) makes the Boolean say whether the sequence is accepted. -/
theorem _root_.MZ.C76_regular_reif (xs : Arr Int) (Q sl su : Int) (d : Mat Int) (q0 : Int) (F : Finset Int) (b : Prop)
    (ok : regularOk Q sl su d q0 F) :
    regularReif xs Q sl su d q0 F b ↔
      (b ↔ Accepts (stepOf d.val (fun x => sl ≤ x ∧ x ≤ su)) F q0 (elems xs)) :=
  regularReif_iff ok xs b

/-- **Partial.** The construction for solvers with their own `fzn_regular`: right if the variables take symbols only. -/
theorem _root_.MZ.C76_regular_reif_native_partial (xs : Arr Int) (Q S : Int) (d : Mat Int) (q0 : Int) (F : Finset Int)
    (b : Prop) [Decidable b] (ok : regularOk Q 1 S d q0 F) (hx : ∀ i ∈ xs.idx, 1 ≤ xs i ∧ xs i ≤ S) :
    regularReifNative xs Q S d q0 F b ↔ (b ↔ Accepts (stepOf d.val (fun x => 1 ≤ x ∧ x ≤ S)) F q0 (elems xs)) :=
  regularReifNative_iff ok xs hx b

/-- … and for `fzn_regular_set`. -/
theorem _root_.MZ.C76_regular_set_reif_native_partial (xs : Arr Int) (Q sl su : Int) (d : Mat Int) (q0 : Int)
    (F : Finset Int) (b : Prop) [Decidable b] (ok : regularOk Q sl su d q0 F)
    (hx : ∀ i ∈ xs.idx, sl ≤ xs i ∧ xs i ≤ su) :
    regularSetReifNative xs Q sl su d q0 F b ↔
      (b ↔ Accepts (stepOf d.val (fun x => sl ≤ x ∧ x ≤ su)) F q0 (elems xs)) :=
  regularSetReifNative_iff ok xs hx b

/-- A value that is no symbol makes the construction unsatisfiable, although `b = false` would be right. -/
theorem _root_.MZ.C76_regular_reif_native_fails : ∃ (xs : Arr Int) (Q S : Int) (d : Mat Int) (q0 : Int) (F : Finset Int),
    regularOk Q 1 S d q0 F ∧ ¬ regularReifNative xs Q S d q0 F False ∧
      ¬ Accepts (stepOf d.val (fun x => 1 ≤ x ∧ x ≤ S)) F q0 (elems xs) := by
  refine ⟨⟨1, 1, fun _ => 7⟩, 1, 1, ⟨1, 1, 1, 1, fun _ _ => 1⟩, 1, {1}, ?_, ?_, ?_⟩
  · refine ⟨by decide, by decide, by decide, ?_, by decide, by decide⟩
    intros; dsimp only; omega
  · intro h
    unfold regularReifNative fznRegular at h
    rw [if_neg (by decide)] at h
    obtain ⟨a, _, _, h3, _⟩ := h
    have := (h3 1 (by decide)).1.2
    revert this
    decide
  · rintro ⟨q', h, _⟩
    simp [stepOf] at h

theorem accepts_congr {f g : Int → Int → Option Int} {F : Finset Int} (P : Int → Prop)
    (h : ∀ q x, P q → f q x = g q x) (hp : ∀ q x t, P q → f q x = some t → P t) (w : List Int) :
    ∀ q, P q → (Accepts f F q w ↔ Accepts g F q w) := by
  induction w with
  | nil => intro q _; rfl
  | cons x w ih =>
    intro q hq
    simp only [Accepts]
    constructor
    · rintro ⟨t, ht, hw⟩
      exact ⟨t, by rw [← h q x hq]; exact ht, (ih t (hp q x t hq ht)).1 hw⟩
    · rintro ⟨t, ht, hw⟩
      rw [← h q x hq] at ht
      exact ⟨t, ht, (ih t (hp q x t hq ht)).2 hw⟩

/-- **Partial.** `regular(xs, d, q0, F)` over index sets: right if the states start at 1, and the sequence is not empty
or the symbols start at 1.  Missing: see the `_fails` theorems. -/
theorem _root_.MZ.C76_regular_enum_partial (xs : Arr Int) (d : Mat (Option Int)) (q0 : Int) (F : Finset Int)
    (h1 : d.lo1 = 1) (hx : xs.idx.Nonempty ∨ d.lo2 = 1) (hs : d.lo2 ≤ d.hi2)
    (hd : ∀ s v t, d.lo1 ≤ s → s ≤ d.hi1 → d.lo2 ≤ v → v ≤ d.hi2 → d.val s v = some t → d.lo1 ≤ t ∧ t ≤ d.hi1)
    (hq : d.lo1 ≤ q0 ∧ q0 ≤ d.hi1) (hF : ∀ q ∈ F, d.lo1 ≤ q ∧ q ≤ d.hi1) :
    regularEnum xs d q0 F ↔
      Accepts (fun s v => if d.lo2 ≤ v ∧ v ≤ d.hi2 then d.val s v else none) F q0 (elems xs) := by
  unfold regularEnum
  dsimp only
  rw [h1] at hd hq hF
  rw [h1]
  have e1 : F.image (fun x => x - (1 - 1)) = F := by simp
  have e2 : q0 - (1 - 1) = q0 := by omega
  have e3 : d.hi1 - 1 + 1 = d.hi1 := by omega
  rw [e1, e2, e3]
  have ok : regularOk d.hi1 d.lo2 d.hi2 (⟨1, d.hi1, d.lo2, d.hi2, fun s v =>
      match d.val s v with | some t => t - (1 - 1) | none => 0⟩ : Mat Int) q0 F := by
    refine ⟨by omega, hs, ⟨rfl, rfl, rfl, rfl⟩, ?_, hq, hF⟩
    intro i j a b c e
    dsimp only
    cases hv : d.val i j with
    | none => dsimp only; omega
    | some t =>
      have := hd i j t a b c e hv
      dsimp only; omega
  have cg := accepts_congr (F := F) (f := fun s v => if d.lo2 ≤ v ∧ v ≤ d.hi2 then d.val s v else none)
    (g := stepOf (fun s v => match d.val s v with | some t => t - (1 - 1) | none => 0)
      (fun x => d.lo2 ≤ x ∧ x ≤ d.hi2)) (fun q => 1 ≤ q ∧ q ≤ d.hi1) ?_ ?_ (elems xs) q0 hq
  · rw [cg]
    split
    · rename_i e
      rw [e] at ok ⊢
      exact fznRegular_iff ok xs
    · rename_i e
      exact fznRegularSet_iff ok xs (hx.resolve_right e)
  · intro q x hq'
    unfold stepOf
    by_cases hx' : d.lo2 ≤ x ∧ x ≤ d.hi2
    · cases hv : d.val q x with
      | none => simp [hv]
      | some t =>
        have := hd q x t hq'.1 hq'.2 hx'.1 hx'.2 hv
        have ht : t ≠ 0 := by omega
        simp [hx', ht, hv]
    · simp [hx']
  · intro q x t hq' ht
    split at ht
    · rename_i hx'
      exact hd q x t hq'.1 hq'.2 hx'.1 hx'.2 ht
    · cases ht

/-- The states are `2..3`, the automaton accepts `[1]`, the constraint does not. -/
theorem _root_.MZ.C76_regular_enum_fails : ∃ (xs : Arr Int) (d : Mat (Option Int)) (q0 : Int) (F : Finset Int),
    (∀ s v t, d.val s v = some t → d.lo1 ≤ t ∧ t ≤ d.hi1) ∧ (d.lo1 ≤ q0 ∧ q0 ≤ d.hi1) ∧
    (∀ q ∈ F, d.lo1 ≤ q ∧ q ≤ d.hi1) ∧ xs.len = 1 ∧ ¬ regularEnum xs d q0 F ∧
      Accepts (fun s v => if d.lo2 ≤ v ∧ v ≤ d.hi2 then d.val s v else none) F q0 (elems xs) := by
  refine ⟨⟨1, 1, fun _ => 1⟩, ⟨2, 3, 1, 1, fun s _ => if s = 2 then some 3 else none⟩, 2, {3}, ?_, by decide, by decide,
    by decide, ?_, ?_⟩
  · intro s v t h
    dsimp only at h ⊢
    split at h
    · simp only [Option.some.injEq] at h; omega
    · cases h
  · intro h
    unfold regularEnum at h
    dsimp only at h
    rw [if_pos rfl] at h
    unfold fznRegular at h
    rw [if_neg (by decide)] at h
    obtain ⟨a, _, h2, h3, _⟩ := h
    dsimp only at h2
    have := (h3 1 (by decide)).2.1
    rw [h2] at this
    dsimp only at this
    omega
  · exact ⟨3, by decide, by simp [elems, Accepts]⟩

/-- **Partial.** `regular_nfa(xs, d, q0, F)` over index sets: right if the states start at 1. -/
theorem _root_.MZ.C76_regular_nfa_enum_partial (xs : Arr Int) (d : Mat (Finset Int)) (q0 : Int) (F : Finset Int)
    (h1 : d.lo1 = 1) (hs : d.lo2 ≤ d.hi2)
    (hd : ∀ s v, d.lo1 ≤ s → s ≤ d.hi1 → d.lo2 ≤ v → v ≤ d.hi2 → ∀ t ∈ d.val s v, d.lo1 ≤ t ∧ t ≤ d.hi1)
    (hq : d.lo1 ≤ q0 ∧ q0 ≤ d.hi1) (hF : ∀ q ∈ F, d.lo1 ≤ q ∧ q ≤ d.hi1) :
    regularNfaEnum xs d q0 F ↔
      AcceptsN (fun s v => if d.lo2 ≤ v ∧ v ≤ d.hi2 then d.val s v else ∅) F q0 (elems xs) := by
  unfold regularNfaEnum
  dsimp only
  rw [h1] at hd hq hF
  rw [h1]
  have e1 : ∀ G : Finset Int, G.image (fun x => x - (1 - 1)) = G := by intro G; simp
  have e2 : q0 - (1 - 1) = q0 := by omega
  have e3 : d.hi1 - 1 + 1 = d.hi1 := by omega
  simp only [e1]
  rw [e2, e3]
  exact fznRegularNfa_iff (d := ⟨1, d.hi1, d.lo2, d.hi2, d.val⟩)
    ⟨by dsimp only; omega, hs, ⟨rfl, rfl, rfl, rfl⟩, fun i j a b c e => hd i j a b c e, hq, hF⟩ xs

/-- The states are `2..3`, the automaton accepts `[1]`, the constraint does not. -/
theorem _root_.MZ.C76_regular_nfa_enum_fails : ∃ (xs : Arr Int) (d : Mat (Finset Int)) (q0 : Int) (F : Finset Int),
    (∀ s v, ∀ t ∈ d.val s v, d.lo1 ≤ t ∧ t ≤ d.hi1) ∧ (d.lo1 ≤ q0 ∧ q0 ≤ d.hi1) ∧
    (∀ q ∈ F, d.lo1 ≤ q ∧ q ≤ d.hi1) ∧ xs.len = 1 ∧ ¬ regularNfaEnum xs d q0 F ∧
      AcceptsN (fun s v => if d.lo2 ≤ v ∧ v ≤ d.hi2 then d.val s v else ∅) F q0 (elems xs) := by
  refine ⟨⟨1, 1, fun _ => 1⟩, ⟨2, 3, 1, 1, fun s _ => if s = 2 then {3} else ∅⟩, 2, {3}, ?_, by decide, by decide,
    by decide, ?_, ?_⟩
  · intro s v t h
    dsimp only at h ⊢
    split at h
    · rw [Finset.mem_singleton] at h; omega
    · simp at h
  · intro h
    unfold regularNfaEnum at h
    dsimp only at h
    unfold fznRegularNfa at h
    rw [if_neg (by decide)] at h
    obtain ⟨a, _, h2, h3, _⟩ := h
    dsimp only at h2
    obtain ⟨_, t, h4, _⟩ := h3 1 (by decide)
    have := h4.1
    rw [h2] at this
    dsimp only at this
    omega
  · exact ⟨3, by decide, by simp [elems, AcceptsN]⟩

/-! ## Decision diagrams -/

/-- `mdd` holds exactly for the sequences spelled by a path from the root to the true node. -/
theorem _root_.MZ.C76_mdd (m : Diagram) (xs : Arr Int) (D : Finset Int) (hl : m.Layered xs.len) (hd : m.Deterministic)
    (h1 : xs.lo = 1) (h2 : 0 ≤ xs.hi) : fznMdd m xs D ↔ m.Path 1 (elems xs) :=
  fznMdd_iff hl h1 h2 hd D

/-- … and so does its reified version. -/
theorem _root_.MZ.C76_mdd_reif (m : Diagram) (xs : Arr Int) (D : Finset Int) (b : Prop) (hl : m.Layered xs.len)
    (hd : m.Deterministic) (h1 : xs.lo = 1) (h2 : 0 ≤ xs.hi) :
    fznMddReif m xs D b ↔ (b ↔ m.Path 1 (elems xs)) :=
  fznMddReif_iff hl h1 h2 hd D b

/-- … and the version for diagrams that are not deterministic. -/
theorem _root_.MZ.C76_mdd_nondet (m : Diagram) (xs : Arr Int) (D : Finset Int) (hl : m.Layered xs.len)
    (h1 : xs.lo = 1) (h2 : 0 ≤ xs.hi) : fznMddNondet m xs D ↔ m.Path 1 (elems xs) :=
  fznMddNondet_iff hl h1 h2 D

/-- Solutions of `cost_mdd` are paths with the right cost, if no cost is negative. -/
theorem _root_.MZ.C76_cost_mdd_sound_partial (m : Diagram) (xs : Arr Int) (cost : Int → Int) (total : Int)
    (dom : Int → Finset Int) (hl : m.Layered xs.len) (hd : m.Deterministic) (h1 : xs.lo = 1) (h2 : 0 ≤ xs.hi)
    (hc : ∀ e, 1 ≤ e → e ≤ m.E → 0 ≤ cost e) (h : fznCostMdd m xs cost total dom) :
    m.CostPath cost 1 (elems xs) total :=
  fznCostMdd_sound hc hl h1 h2 hd total dom h

/-- **Partial.** `cost_mdd` is right if no cost is negative and no node is dangling; see the `_fails` theorems for
what is missing. -/
theorem _root_.MZ.C76_cost_mdd_partial (m : Diagram) (xs : Arr Int) (cost : Int → Int) (total : Int)
    (dom : Int → Finset Int) (hl : m.Layered xs.len) (hd : m.Deterministic) (h1 : xs.lo = 1) (h2 : 0 ≤ xs.hi)
    (hc : ∀ e, 1 ≤ e → e ≤ m.E → 0 ≤ cost e) (hf : m.Full) :
    fznCostMdd m xs cost total dom ↔ m.CostPath cost 1 (elems xs) total :=
  ⟨fznCostMdd_sound hc hl h1 h2 hd total dom, fznCostMdd_complete hc hl h1 h2 hd hf total dom⟩

/-- One variable, one edge from the root to the true node. -/
def oneEdge : Diagram := ⟨1, fun _ => 1, 1, fun _ => 1, fun _ => {4}, fun _ => 0⟩

/-- … of cost -5: the only path has cost -5, the constraint has no solution. -/
theorem _root_.MZ.C76_cost_mdd_negative_fails : ∃ (m : Diagram) (xs : Arr Int) (cost : Int → Int) (total : Int)
    (dom : Int → Finset Int), m.Layered xs.len ∧ m.Deterministic ∧ m.Full ∧ xs.lo = 1 ∧
      m.CostPath cost 1 (elems xs) total ∧ ∀ t, ¬ fznCostMdd m xs cost t dom := by
  refine ⟨oneEdge, ⟨1, 1, fun _ => 4⟩, fun _ => -5, -5, fun _ => {4}, ?_, ?_, ?_, rfl, ?_, ?_⟩
  · refine ⟨by decide, ?_, ?_, ?_⟩ <;> intros <;> simp [oneEdge, Arr.len, Arr.idx]
  · intro e f a b c d _ _
    simp only [oneEdge] at b d
    omega
  · constructor
    · intro n a b
      simp only [oneEdge] at b ⊢
      exact ⟨1, by omega, by omega, by omega⟩
    · intro n a b
      simp only [oneEdge] at b
      omega
  · exact ⟨1, by decide, by decide, rfl, by decide, rfl, by decide⟩
  · rintro t ⟨bn, be, ln, un, hr, h⟩
    have h0 := h.2.2.2.2.2.2.2.2.2.2.1
    have := (hr 0 (by decide) (by decide)).1.2
    rw [h0] at this
    revert this
    decide

/-- A second node that no edge leaves makes the constraint unsatisfiable. -/
theorem _root_.MZ.C76_cost_mdd_dangling_fails : ∃ (m : Diagram) (xs : Arr Int) (cost : Int → Int) (total : Int)
    (dom : Int → Finset Int), m.Layered xs.len ∧ m.Deterministic ∧ (∀ n, 2 ≤ n → n ≤ m.N → m.level n ≠ 1) ∧
      (∀ e, 0 ≤ cost e) ∧ xs.lo = 1 ∧
      m.CostPath cost 1 (elems xs) total ∧ ∀ t, ¬ fznCostMdd m xs cost t dom := by
  refine ⟨⟨2, fun n => n, 1, fun _ => 1, fun _ => {4}, fun _ => 0⟩, ⟨1, 1, fun _ => 4⟩, fun _ => 5, 5, fun _ => {4},
    ?_, ?_, ?_, by simp, rfl, ?_, ?_⟩
  · refine ⟨by decide, ?_, ?_, ?_⟩ <;> intros <;> simp [Arr.len, Arr.idx]
  · intro e f a b c d _ _
    dsimp only at b d
    omega
  · intro n a _
    dsimp only; omega
  · exact ⟨1, by decide, by decide, rfl, by decide, rfl, by decide⟩
  · rintro t ⟨bn, be, ln, un, _, _, _, _, _, _, _, _, _, _, _, _, _, h, _⟩
    obtain ⟨⟨e, he, _⟩, _⟩ := h 2 (by decide) (by decide)
    simp [edges] at he

/-! ## Tables -/

/-- **Partial.** `table` holds exactly for the rows of the table; missing are arrays without elements, see
`C76_table_fails`. -/
theorem _root_.MZ.C76_table_partial {α : Type} (xs : Arr α) (t : Mat α) (c : Prop) (h : table fznTable xs t = some c)
    (hx : xs.lo ≤ xs.hi) : Finset.Icc t.lo2 t.hi2 = xs.idx ∧ (c ↔ InTable xs t) := by
  unfold table at h
  split at h
  · rename_i e
    simp only [Option.some.injEq] at h
    subst h
    exact ⟨e, fznTable_iff xs t hx⟩
  · cases h

/-- A table of one row without columns contains the empty array; the constraint is false. -/
theorem _root_.MZ.C76_table_fails : ∃ (xs : Arr Int) (t : Mat Int) (c : Prop), table fznTable xs t = some c ∧ ¬ c ∧
    InTable xs t := by
  refine ⟨⟨1, 0, fun i => i⟩, ⟨1, 1, 1, 0, fun _ _ => 0⟩, _, if_pos (by decide), ?_, ?_⟩
  · rintro ⟨h, _⟩; dsimp only at h; omega
  · refine ⟨1, by decide, by decide, ?_⟩
    intro j hj
    rw [Arr.mem_idx] at hj
    dsimp only at hj; omega

/-- **Partial.** The same for optional values, absent ones agreeing with everything. -/
theorem _root_.MZ.C76_table_opt_partial {α : Type} (xs : Arr (Option α)) (t : Mat (Option α)) (c : Prop)
    (h : table fznTableOpt xs t = some c) (hx : xs.lo ≤ xs.hi) : c ↔ InTableOpt xs t := by
  unfold table at h
  split at h
  · simp only [Option.some.injEq] at h
    subst h
    exact fznTableOpt_iff xs t hx
  · cases h

/-- The reified table: if it does not abort, the Boolean says whether the array is a row.  The domains must contain
the values. -/
theorem _root_.MZ.C76_table_reif (xs : Arr Int) (t : Mat Int) (doms : List (List Int)) (b : Prop) [Decidable b] (c : Prop)
    (h1 : xs.lo = 1) (h2 : 0 ≤ xs.hi) (hn : doms.length = xs.len)
    (hx : ∀ i ∈ xs.idx, xs i ∈ doms.getD (i - 1).toNat [])
    (h : fznTableReif xs t doms b = some c) : (1 ≤ xs.len ∧ xs.len ≤ 5) ∧ (c ↔ (b ↔ InTable xs t)) := by
  refine ⟨?_, fznTableReif_iff xs t doms b c h1 h2 hn hx h⟩
  by_contra hcon
  unfold fznTableReif at h
  rw [if_pos hcon] at h
  cases h

/-- … and it does not abort for one to five variables. -/
theorem _root_.MZ.C76_table_reif_total (xs : Arr Int) (t : Mat Int) (doms : List (List Int)) (b : Prop) [Decidable b]
    (h : 1 ≤ xs.len ∧ xs.len ≤ 5) : (fznTableReif xs t doms b).isSome := by
  unfold fznTableReif
  rw [if_neg (by simpa using h)]
  split <;> rfl

/-! ## Concrete cases -/

/-- Words over `1, 2` with an even number of twos. -/
def evenTwos : Mat Int := ⟨1, 2, 1, 2, fun q x => if x = 1 then q else 3 - q⟩

theorem evenTwos_ok : regularOk 2 1 2 evenTwos 1 {1} := by
  refine ⟨by decide, by decide, by decide, ?_, by decide, by decide⟩
  intro i j _ _ _ _
  simp only [evenTwos]
  split <;> omega

example : ∃ c, regular ⟨1, 3, fun i => if i = 2 then 1 else 2⟩ 2 2 evenTwos 1 {1} = some c ∧ c := by
  refine ⟨_, if_pos evenTwos_ok, (fznRegular_iff evenTwos_ok _).2 ?_⟩
  exact ⟨2, by decide, 2, by decide, 1, by decide, by simp [Accepts, evenTwos]⟩

example : ∃ c, regular ⟨1, 1, fun _ => 2⟩ 2 2 evenTwos 1 {1} = some c ∧ ¬ c := by
  refine ⟨_, if_pos evenTwos_ok, ?_⟩
  rw [fznRegular_iff evenTwos_ok]
  rintro ⟨q, h1, h2⟩
  simp [stepOf, evenTwos, elems, Accepts] at h1 h2
  omega

/-- The assertions reject an automaton with a transition outside its states. -/
example : regular ⟨1, 1, fun _ => 1⟩ 1 1 ⟨1, 1, 1, 1, fun _ _ => 2⟩ 1 {1} = none := by
  refine if_neg ?_
  rintro ⟨_, _, _, h, _⟩
  have := h 1 1 (by decide) (by decide) (by decide) (by decide)
  dsimp only at this
  omega

/-- A diagram for `x < y` over `1..3`: two inner nodes. -/
def lessThan : Diagram := ⟨3, fun n => if n = 1 then 1 else 2, 4, fun e => if e ≤ 2 then 1 else e - 1,
  fun e => if e = 1 then {1} else if e = 2 then {2} else if e = 3 then {2, 3} else {3},
  fun e => if e ≤ 2 then e + 1 else 0⟩

theorem lessThan_ok : lessThan.Layered 2 ∧ lessThan.Deterministic ∧ lessThan.Full := by
  refine ⟨⟨by decide, ?_, ?_, ?_⟩, ?_, ?_⟩
  · intro e h1 h2; simp only [lessThan] at h2 ⊢; split <;> omega
  · intro e h1 h2; simp only [lessThan] at h2 ⊢; split <;> omega
  · intro e h1 h2
    simp only [lessThan] at h2 ⊢
    have : e = 1 ∨ e = 2 ∨ e = 3 ∨ e = 4 := by omega
    rcases this with rfl | rfl | rfl | rfl <;> decide
  · intro e f h1 h2 h3 h4 h5 ⟨v, h6, h7⟩
    simp only [lessThan] at h2 h4 h5 h6 h7
    have he : e = 1 ∨ e = 2 ∨ e = 3 ∨ e = 4 := by omega
    have hf : f = 1 ∨ f = 2 ∨ f = 3 ∨ f = 4 := by omega
    rcases he with rfl | rfl | rfl | rfl <;> rcases hf with rfl | rfl | rfl | rfl <;> simp at h5 h6 h7 ⊢ <;> omega
  · constructor
    · intro n h1 h2
      simp only [lessThan] at h2
      have : n = 1 ∨ n = 2 ∨ n = 3 := by omega
      rcases this with rfl | rfl | rfl
      · exact ⟨1, by decide⟩
      · exact ⟨3, by decide⟩
      · exact ⟨4, by decide⟩
    · intro n h1 h2
      simp only [lessThan] at h2
      have : n = 2 ∨ n = 3 := by omega
      rcases this with rfl | rfl
      · exact ⟨1, by decide⟩
      · exact ⟨2, by decide⟩

example : fznMdd lessThan ⟨1, 2, fun i => i⟩ {1, 2, 3} :=
  (fznMdd_iff lessThan_ok.1 rfl (by decide) lessThan_ok.2.1 _).2
    ⟨1, by decide, by decide, rfl, by decide, 3, by decide, by decide, rfl, by decide, rfl⟩

example : fznCostMdd lessThan ⟨1, 2, fun i => i⟩ (fun e => e) 4 (fun _ => {1, 2, 3}) :=
  fznCostMdd_complete (fun e _ _ => by omega) lessThan_ok.1 rfl (by decide) lessThan_ok.2.1 lessThan_ok.2.2 4 _
    ⟨1, by decide, by decide, rfl, by decide, 3, by decide, by decide, rfl, by decide, rfl, by decide⟩

example : ∃ c, fznTableReif ⟨1, 2, fun i => i⟩ ⟨1, 2, 1, 2, fun r j => r + j - 1⟩ [[1, 2], [2, 3]] True = some c ∧ c := by
  refine ⟨_, rfl, ?_⟩
  refine ((C76_table_reif ⟨1, 2, fun i => i⟩ ⟨1, 2, 1, 2, fun r j => r + j - 1⟩ [[1, 2], [2, 3]] True _ rfl (by decide)
    (by decide) (by decide) rfl).2).2 ?_
  refine iff_of_true trivial ⟨1, by decide, by decide, ?_⟩
  intro j _
  dsimp only; omega

end MZ.Ext
