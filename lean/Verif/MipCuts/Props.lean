import Verif.MipCuts.Model
import Mathlib.Algebra.BigOperators.Field

/-!
# C84: the cut generators of the MIP interface

What is said about a cut: it holds in every solution of the constraint, and the integer points without a cut are the solutions.
-/

namespace MZ.MipCuts

/-! ## Specification -/

/-- Following `f` leads from every node to every node. -/
def IsCircuit (n : Nat) (f : Nat → Nat) : Prop := (∀ i < n, f i < n) ∧ ∀ i < n, ∀ j < n, ∃ k : Nat, f^[k] i = j

/-- The columns hold the 0/1 matrix of `f`. -/
def Point (n : Nat) (varX : Nat → Nat) (f : Nat → Nat) (x : Nat → ℚ) : Prop :=
  ∀ i < n, ∀ j < n, x (varX (n * i + j)) = if f i = j then 1 else 0

/-- A minimum cut algorithm: for at least two nodes and weights that are not negative it returns a smallest cut and its weight. -/
def MinCutSpec (minCut : Nat → (Nat → Nat → ℚ) → Option (Finset Nat × ℚ)) : Prop :=
  ∀ n w, 2 ≤ n → (∀ a b, 0 ≤ w a b) → ∃ S v, minCut n w = some (S, v) ∧ S ⊆ Finset.range n ∧ S.Nonempty ∧ S ≠ Finset.range n ∧
    v = cutWeight n w S ∧ ∀ T ⊆ Finset.range n, T.Nonempty → T ≠ Finset.range n → v ≤ cutWeight n w T

/-! ## Sums -/

/-- What leaves `S`. -/
def out (n : Nat) (F : Nat → Nat → ℚ) (S : Finset Nat) : ℚ :=
  ∑ a ∈ Finset.range n, ∑ b ∈ Finset.range n, if a ∈ S ∧ ¬ b ∈ S then F a b else 0

theorem sparse_aux (ts : List (Nat × ℚ)) (x : Nat → ℚ) (v : ℚ) :
    ts.foldl (fun v t => v + t.2 * x t.1) v = v + (ts.map fun t => t.2 * x t.1).sum := by
  induction ts generalizing v with
  | nil => simp
  | cons t ts ih => rw [List.foldl_cons, ih, List.map_cons, List.sum_cons]; ring

theorem sparse_eq (ts : List (Nat × ℚ)) (x : Nat → ℚ) : computeSparse ts x = (ts.map fun t => t.2 * x t.1).sum := by
  unfold computeSparse; rw [sparse_aux]; ring

theorem sum_flatMap (n : Nat) (g : Nat → List (Nat × ℚ)) (h : Nat × ℚ → ℚ) :
    (((List.range n).flatMap g).map h).sum = ∑ i ∈ Finset.range n, ((g i).map h).sum := by
  induction n with
  | zero => simp
  | succ n ih =>
    rw [List.range_succ, List.flatMap_append, List.map_append, List.sum_append, ih, Finset.sum_range_succ]
    simp

theorem sec_sparse (n : Nat) (varX : Nat → Nat) (S : Finset Nat) (x : Nat → ℚ) :
    computeSparse (secTerms n varX S) x = out n (fun a b => x (varX (n * a + b))) S := by
  rw [sparse_eq]
  unfold secTerms out
  rw [sum_flatMap]
  refine Finset.sum_congr rfl fun i _ => ?_
  by_cases hi : i ∈ S
  · simp only [hi, if_true, true_and]
    rw [sum_flatMap]
    refine Finset.sum_congr rfl fun j _ => ?_
    split_ifs <;> simp
  · simp [hi]

theorem cutWeight_eq (n : Nat) (F : Nat → Nat → ℚ) (S : Finset Nat) :
    cutWeight n (fun a b => F a b + F b a) S = out n F S + out n (fun a b => F b a) S := by
  unfold cutWeight out
  have h1 : ∀ a b, (if a < b ∧ (a ∈ S ↔ ¬ b ∈ S) then F a b + F b a else 0) =
      (if a < b ∧ (a ∈ S ↔ ¬ b ∈ S) then F a b else 0) + (if a < b ∧ (a ∈ S ↔ ¬ b ∈ S) then F b a else 0) := by
    intro a b; split_ifs <;> simp
  simp only [h1, Finset.sum_add_distrib]
  have h2 : (∑ a ∈ Finset.range n, ∑ b ∈ Finset.range n, if a < b ∧ (a ∈ S ↔ ¬ b ∈ S) then F b a else 0) =
      ∑ a ∈ Finset.range n, ∑ b ∈ Finset.range n, if b < a ∧ (b ∈ S ↔ ¬ a ∈ S) then F a b else 0 := Finset.sum_comm
  have h3 : (∑ a ∈ Finset.range n, ∑ b ∈ Finset.range n, if a ∈ S ∧ ¬ b ∈ S then F b a else 0) =
      ∑ a ∈ Finset.range n, ∑ b ∈ Finset.range n, if b ∈ S ∧ ¬ a ∈ S then F a b else 0 := Finset.sum_comm
  rw [h2, h3, ← Finset.sum_add_distrib, ← Finset.sum_add_distrib]
  refine Finset.sum_congr rfl fun a _ => ?_
  rw [← Finset.sum_add_distrib, ← Finset.sum_add_distrib]
  refine Finset.sum_congr rfl fun b _ => ?_
  rcases lt_trichotomy a b with h | rfl | h
  · have : ¬ b < a := by omega
    by_cases ha : a ∈ S <;> by_cases hb : b ∈ S <;> simp [h, this, ha, hb]
  · by_cases ha : a ∈ S <;> simp [ha]
  · have : ¬ a < b := by omega
    by_cases ha : a ∈ S <;> by_cases hb : b ∈ S <;> simp [h, this, ha, hb]

theorem out_eq_in {n : Nat} {F : Nat → Nat → ℚ} {S : Finset Nat} (h1 : ∀ a < n, ∑ b ∈ Finset.range n, F a b = 1)
    (h2 : ∀ b < n, ∑ a ∈ Finset.range n, F a b = 1) : out n F S = out n (fun a b => F b a) S := by
  have key : ∀ G : Nat → Nat → ℚ, (∀ a < n, ∑ b ∈ Finset.range n, G a b = 1) →
      out n G S + (∑ a ∈ Finset.range n, ∑ b ∈ Finset.range n, if a ∈ S ∧ b ∈ S then G a b else 0) =
        ∑ a ∈ Finset.range n, if a ∈ S then 1 else 0 := by
    intro G hG
    unfold out
    rw [← Finset.sum_add_distrib]
    refine Finset.sum_congr rfl fun a ha => ?_
    rw [← Finset.sum_add_distrib]
    split_ifs with h
    · rw [← hG a (Finset.mem_range.1 ha)]
      refine Finset.sum_congr rfl fun b _ => ?_
      by_cases hb : b ∈ S <;> simp [h, hb]
    · exact Finset.sum_eq_zero fun b _ => by simp [h]
  have k1 := key F h1
  have k2 := key (fun a b => F b a) h2
  have k3 : (∑ a ∈ Finset.range n, ∑ b ∈ Finset.range n, if a ∈ S ∧ b ∈ S then F a b else 0) =
      ∑ a ∈ Finset.range n, ∑ b ∈ Finset.range n, if a ∈ S ∧ b ∈ S then F b a else 0 := by
    rw [Finset.sum_comm]
    refine Finset.sum_congr rfl fun a _ => Finset.sum_congr rfl fun b _ => ?_
    by_cases ha : a ∈ S <;> by_cases hb : b ∈ S <;> simp [ha, hb]
  linarith

theorem out_nonneg {n : Nat} {F : Nat → Nat → ℚ} {S : Finset Nat} (h : ∀ a < n, ∀ b < n, 0 ≤ F a b) : 0 ≤ out n F S :=
  Finset.sum_nonneg fun a ha => Finset.sum_nonneg fun b hb => by
    split_ifs
    · exact h a (Finset.mem_range.1 ha) b (Finset.mem_range.1 hb)
    · exact le_refl _

theorem le_out {n : Nat} {F : Nat → Nat → ℚ} {S : Finset Nat} (h : ∀ a < n, ∀ b < n, 0 ≤ F a b) {a b : Nat} (ha : a < n)
    (hb : b < n) (h1 : a ∈ S) (h2 : b ∉ S) : F a b ≤ out n F S := by
  unfold out
  have hin : ∀ a < n, ∀ b ∈ Finset.range n, 0 ≤ if a ∈ S ∧ ¬ b ∈ S then F a b else 0 := by
    intro a ha b hb
    split_ifs
    · exact h a ha b (Finset.mem_range.1 hb)
    · exact le_refl _
  calc F a b = if a ∈ S ∧ ¬ b ∈ S then F a b else 0 := by rw [if_pos ⟨h1, h2⟩]
    _ ≤ ∑ b ∈ Finset.range n, if a ∈ S ∧ ¬ b ∈ S then F a b else 0 :=
        Finset.single_le_sum (f := fun b => if a ∈ S ∧ ¬ b ∈ S then F a b else 0) (hin a ha) (Finset.mem_range.2 hb)
    _ ≤ _ := Finset.single_le_sum (f := fun a => ∑ b ∈ Finset.range n, if a ∈ S ∧ ¬ b ∈ S then F a b else 0)
        (fun a ha => Finset.sum_nonneg (hin a (Finset.mem_range.1 ha))) (Finset.mem_range.2 ha)

theorem weight_nonneg (n : Nat) (varX : Nat → Nat) (x : Nat → ℚ) (a b : Nat) : 0 ≤ weight n varX x a b := by
  have : ∀ a b, 0 ≤ flow n varX x a b := by
    intro a b
    unfold flow
    split_ifs with h
    · linarith
    · exact le_refl _
  exact add_nonneg (this a b) (this b a)

theorem leaves {n : Nat} {f : Nat → Nat} (hc : IsCircuit n f) {S : Finset Nat} (hs : S ⊆ Finset.range n) (h1 : S.Nonempty)
    (h2 : S ≠ Finset.range n) : ∃ i ∈ S, f i ∉ S := by
  by_contra hn
  push Not at hn
  obtain ⟨i, hi⟩ := h1
  refine h2 (Finset.Subset.antisymm hs fun j hj => ?_)
  obtain ⟨k, hk⟩ := hc.2 i (Finset.mem_range.1 (hs hi)) j (Finset.mem_range.1 hj)
  rw [← hk]
  clear hk
  induction k with
  | zero => exact hi
  | succ k ih => rw [Function.iterate_succ_apply']; exact hn _ ih

theorem one_le_out {n : Nat} {varX f : Nat → Nat} {y : Nat → ℚ} (hc : IsCircuit n f) (hp : Point n varX f y) {S : Finset Nat}
    (hs : S ⊆ Finset.range n) (h1 : S.Nonempty) (h2 : S ≠ Finset.range n) : 1 ≤ out n (fun a b => y (varX (n * a + b))) S := by
  obtain ⟨i, hi, hf⟩ := leaves hc hs h1 h2
  have hin := Finset.mem_range.1 (hs hi)
  have := le_out (F := fun a b => y (varX (n * a + b))) (S := S) (n := n)
    (fun a ha b hb => by show 0 ≤ y _; rw [hp a ha b hb]; split_ifs <;> norm_num) hin (hc.1 i hin) hi hf
  have e : y (varX (n * i + f i)) = 1 := by rw [hp i hin _ (hc.1 i hin), if_pos rfl]
  simpa [e] using this

/-! ## Subtour elimination -/

/-- A generated cut holds in every circuit, whatever the point it was generated for; that point violates it. -/
theorem _root_.MZ.C84_sec_valid {minCut : Nat → (Nat → Nat → ℚ) → Option (Finset Nat × ℚ)} (hm : MinCutSpec minCut) {n : Nat}
    (hn : 2 ≤ n) {varX : Nat → Nat} {x : Nat → ℚ} {c : CutDef} (h : secGenerate minCut n varX x = .cut c) :
    ¬ c.Holds x ∧ ∀ f y, IsCircuit n f → Point n varX f y → c.Holds y := by
  obtain ⟨S, v, e, hs, h1, h2, hv, -⟩ := hm n (weight n varX x) hn (weight_nonneg n varX x)
  unfold secGenerate at h
  rw [e] at h
  split_ifs at h with hp
  dsimp only at h
  split_ifs at h with h3 h4
  injection h with h
  subst h
  refine ⟨?_, fun f y hc hy => ?_⟩
  · unfold CutDef.viol at h4
    unfold CutDef.Holds
    dsimp only at h4 ⊢
    intro h5
    linarith
  · unfold CutDef.Holds
    dsimp only
    rw [sec_sparse]
    exact one_le_out hc hy hs h1 h2

theorem weight_eq {n : Nat} {varX : Nat → Nat} {x : Nat → ℚ}
    (h : ∀ a < n, ∀ b < n, x (varX (n * a + b)) = 0 ∨ 1 / 10000 ≤ x (varX (n * a + b))) (S : Finset Nat) :
    cutWeight n (weight n varX x) S = out n (fun a b => x (varX (n * a + b))) S + out n (fun a b => x (varX (n * b + a))) S := by
  rw [← cutWeight_eq n (fun a b => x (varX (n * a + b)))]
  have hf : ∀ a < n, ∀ b < n, flow n varX x a b = x (varX (n * a + b)) := by
    intro a ha b hb
    unfold flow
    split_ifs with h1
    · rfl
    · rcases h a ha b hb with h2 | h2
      · exact h2.symm
      · exact absurd h2 h1
  unfold cutWeight
  refine Finset.sum_congr rfl fun a ha => Finset.sum_congr rfl fun b hb => ?_
  unfold weight
  rw [hf a (Finset.mem_range.1 ha) b (Finset.mem_range.1 hb), hf b (Finset.mem_range.1 hb) a (Finset.mem_range.1 ha)]

/-- Fractional points, partial: with the assignment constraints, and no value strictly between 0 and 0.0001, the generator does not
throw.  Missing: small positive values, see `C84_sec_abort_fails`. -/
theorem _root_.MZ.C84_sec_no_abort_partial {minCut : Nat → (Nat → Nat → ℚ) → Option (Finset Nat × ℚ)} (hm : MinCutSpec minCut)
    {n : Nat} (hn : 2 ≤ n) {varX : Nat → Nat} {x : Nat → ℚ}
    (hx : ∀ a < n, ∀ b < n, (x (varX (n * a + b)) = 0 ∨ 1 / 10000 ≤ x (varX (n * a + b))) ∧ x (varX (n * a + b)) ≤ 1)
    (hd : ∀ a < n, x (varX (n * a + a)) = 0)
    (hr : ∀ a < n, ∑ b ∈ Finset.range n, x (varX (n * a + b)) = 1) (hc : ∀ b < n, ∑ a ∈ Finset.range n, x (varX (n * a + b)) = 1) :
    secGenerate minCut n varX x ≠ .abort := by
  obtain ⟨S, v, e, hs, h1, h2, hv, -⟩ := hm n (weight n varX x) hn (weight_nonneg n varX x)
  have hok : pointOk n varX x = true := by
    unfold pointOk
    simp only [List.all_eq_true, List.mem_range]
    intro i hi j hj
    obtain ⟨h3, h4⟩ := hx i hi j hj
    have h0 : 0 ≤ x (varX (n * i + j)) := by rcases h3 with h3 | h3 <;> linarith
    have h5 : decide (-(1 / 10000) < x (varX (n * i + j)) ∧ 1 + 1 / 10000 > x (varX (n * i + j))) = true :=
      decide_eq_true ⟨by linarith, by linarith⟩
    rw [h5]
    split_ifs with hij
    · subst hij
      rw [hd i hi]
      simp
    · rfl
  unfold secGenerate
  rw [if_pos hok, e]
  dsimp only
  split_ifs with h3 h4
  · exact fun h => by cases h
  · exfalso
    apply h4
    rw [hv, weight_eq (fun a ha b hb => (hx a ha b hb).1), ← out_eq_in hr hc] at h3
    unfold CutDef.viol
    dsimp only
    rw [sec_sparse]
    linarith
  · exact fun h => by cases h

theorem point_rows {n : Nat} {varX f : Nat → Nat} {x : Nat → ℚ} (hp : Point n varX f x) (hf : ∀ i < n, f i < n) :
    ∀ a < n, ∑ b ∈ Finset.range n, x (varX (n * a + b)) = 1 := by
  intro a ha
  rw [Finset.sum_congr rfl fun b hb => hp a ha b (Finset.mem_range.1 hb)]
  simp [hf a ha]

theorem point_cols {n : Nat} {varX f : Nat → Nat} {x : Nat → ℚ} (hp : Point n varX f x) (hf : ∀ i < n, f i < n)
    (hi : ∀ i < n, ∀ j < n, f i = f j → i = j) : ∀ b < n, ∑ a ∈ Finset.range n, x (varX (n * a + b)) = 1 := by
  intro b hb
  rw [Finset.sum_congr rfl fun a ha => hp a (Finset.mem_range.1 ha) b hb]
  have hsurj : ∃ a ∈ Finset.range n, f a = b :=
    Finset.surj_on_of_inj_on_of_card_le (s := Finset.range n) (t := Finset.range n) (fun a _ => f a)
      (fun a ha => Finset.mem_range.2 (hf a (Finset.mem_range.1 ha)))
      (fun a c ha hc h => hi a (Finset.mem_range.1 ha) c (Finset.mem_range.1 hc) h) (le_refl _) b (Finset.mem_range.2 hb)
      |>.elim fun a h => h.elim fun ha e => ⟨a, ha, e.symm⟩
  obtain ⟨a, ha, e⟩ := hsurj
  rw [Finset.sum_eq_single a]
  · rw [if_pos e]
  · intro c hc hca
    rw [if_neg]
    intro e'
    exact hca (hi c (Finset.mem_range.1 hc) a (Finset.mem_range.1 ha) (e'.trans e.symm))
  · intro h; exact absurd ha h

/-- For an integer point that satisfies the assignment constraints the generator does not throw; it accepts exactly the circuits,
and adds a cut that the point violates otherwise. -/
theorem _root_.MZ.C84_sec_exact {minCut : Nat → (Nat → Nat → ℚ) → Option (Finset Nat × ℚ)} (hm : MinCutSpec minCut) {n : Nat}
    (hn : 2 ≤ n) {varX f : Nat → Nat} {x : Nat → ℚ} (hp : Point n varX f x) (hf : ∀ i < n, f i < n) (hne : ∀ i < n, f i ≠ i)
    (hi : ∀ i < n, ∀ j < n, f i = f j → i = j) :
    (secGenerate minCut n varX x = .noCut ↔ IsCircuit n f) ∧
    (¬ IsCircuit n f → ∃ c, secGenerate minCut n varX x = .cut c ∧ ¬ c.Holds x) := by
  have h01 : ∀ a < n, ∀ b < n, (x (varX (n * a + b)) = 0 ∨ 1 / 10000 ≤ x (varX (n * a + b))) ∧ x (varX (n * a + b)) ≤ 1 := by
    intro a ha b hb
    rw [hp a ha b hb]
    split_ifs <;> norm_num
  have hd : ∀ a < n, x (varX (n * a + a)) = 0 := fun a ha => by rw [hp a ha a ha, if_neg (hne a ha)]
  have hrows := point_rows hp hf
  have hcols := point_cols hp hf hi
  have hab := MZ.C84_sec_no_abort_partial hm hn h01 hd hrows hcols
  have hcirc : IsCircuit n f → secGenerate minCut n varX x = .noCut := by
    intro hc
    cases e : secGenerate minCut n varX x with
    | abort => exact absurd e hab
    | noCut => rfl
    | cut c =>
      obtain ⟨h1, h2⟩ := MZ.C84_sec_valid hm hn e
      exact absurd (h2 f x hc hp) h1
  have hnot : ¬ IsCircuit n f → ∃ c, secGenerate minCut n varX x = .cut c ∧ ¬ c.Holds x := by
    intro hc
    cases e : secGenerate minCut n varX x with
    | abort => exact absurd e hab
    | cut c => exact ⟨c, rfl, (MZ.C84_sec_valid hm hn e).1⟩
    | noCut =>
      exfalso
      unfold IsCircuit at hc
      push Not at hc
      obtain ⟨i, hin, j, hjn, hij⟩ := hc hf
      classical
      let S := (Finset.range n).filter fun b => ∃ k : Nat, f^[k] i = b
      have hiS : i ∈ S := Finset.mem_filter.2 ⟨Finset.mem_range.2 hin, 0, rfl⟩
      have hjS : j ∉ S := fun h => by
        obtain ⟨-, k, hk⟩ := Finset.mem_filter.1 h
        exact hij k hk
      have hclosed : ∀ a ∈ S, f a ∈ S := by
        intro a ha
        obtain ⟨h1, k, hk⟩ := Finset.mem_filter.1 ha
        exact Finset.mem_filter.2 ⟨Finset.mem_range.2 (hf a (Finset.mem_range.1 h1)), k + 1,
          by rw [Function.iterate_succ_apply', hk]⟩
      have hout : out n (fun a b => x (varX (n * a + b))) S = 0 := by
        unfold out
        refine Finset.sum_eq_zero fun a ha => Finset.sum_eq_zero fun b hb => ?_
        split_ifs with h
        · show x (varX (n * a + b)) = 0
          rw [hp a (Finset.mem_range.1 ha) b (Finset.mem_range.1 hb), if_neg]
          rintro rfl
          exact h.2 (hclosed a h.1)
        · rfl
      obtain ⟨T, v, e2, hs, h1, h2, hv, hmin⟩ := hm n (weight n varX x) hn (weight_nonneg n varX x)
      have h3 := hmin S (Finset.filter_subset _ _) ⟨i, hiS⟩ fun h => hjS (h ▸ Finset.mem_range.2 hjn)
      rw [weight_eq (fun a ha b hb => (h01 a ha b hb).1), ← out_eq_in hrows hcols, hout] at h3
      unfold secGenerate at e
      rw [e2] at e
      split_ifs at e with h4
      dsimp only at e
      split_ifs at e with h5
      exact h5 (by linarith)
  refine ⟨⟨fun h => ?_, hcirc⟩, hnot⟩
  by_contra hc
  obtain ⟨c, e, -⟩ := hnot hc
  rw [h] at e
  cases e

/-- A matrix that passes the check at registration has a zero diagonal in every point within the bounds. -/
theorem _root_.MZ.C84_sec_validate {n : Nat} {varX : Nat → Nat} {colUB x : Nat → ℚ} (h : validate n varX colUB = true)
    (hx : ∀ i < n, 0 ≤ x (varX (n * i + i)) ∧ x (varX (n * i + i)) ≤ colUB (varX (n * i + i))) : ∀ i < n, x (varX (n * i + i)) = 0 := by
  intro i hi
  unfold validate at h
  rw [List.all_eq_true] at h
  have h1 := h i (List.mem_range.2 hi)
  simp only [Bool.not_eq_true', decide_eq_false_iff_not, not_lt] at h1
  have h2 := hx i hi
  rw [Nat.mul_comm i n] at h1
  linarith

/-- Without a compiled minimum cut algorithm the generator throws at every point: it neither accepts a solution nor adds a cut. -/
theorem _root_.MZ.C84_sec_not_compiled (n : Nat) (varX : Nat → Nat) (x : Nat → ℚ) :
    secGenerate (fun _ _ => none) n varX x = .abort := by
  unfold secGenerate
  split_ifs <;> rfl

/-- A point of eight nodes that satisfies the assignment constraints: every node sends most of its flow to the next one and a little
to all others. -/
def small (c : Nat) : ℚ := if c / 8 = c % 8 then 0 else if (c / 8 + 1) % 8 = c % 8 then 99946 / 100000 else 9 / 100000

theorem small_out : ∀ S ∈ (Finset.range 8).powerset, S ≠ ∅ → S ≠ Finset.range 8 → 100000 ≤
    ∑ a ∈ Finset.range 8, ∑ b ∈ Finset.range 8, if a ∈ S ∧ ¬ b ∈ S then (if (a + 1) % 8 = b then 99946 else 9) else 0 := by
  decide +kernel

/-- The generator throws at a fractional point with small positive values, because it leaves them out of the graph: the minimum cut
looks small enough but its inequality is not violated. -/
theorem _root_.MZ.C84_sec_abort_fails {minCut : Nat → (Nat → Nat → ℚ) → Option (Finset Nat × ℚ)} (hm : MinCutSpec minCut) :
    (∀ a < 8, small (8 * a + a) = 0 ∧ ∑ b ∈ Finset.range 8, small (8 * a + b) = 1 ∧ ∑ b ∈ Finset.range 8, small (8 * b + a) = 1) ∧
    pointOk 8 id small = true ∧ secGenerate minCut 8 id small = .abort := by
  refine ⟨by decide +kernel, by decide +kernel, ?_⟩
  obtain ⟨S, v, e, hs, h1, h2, hv, hmin⟩ := hm 8 (weight 8 id small) (by decide) (weight_nonneg 8 id small)
  have h3 : v ≤ 1999 / 1000 := le_trans (hmin {0} (by decide) (by decide) (by decide)) (by decide +kernel)
  unfold secGenerate
  split_ifs with hp
  · rw [e]
    dsimp only
    rw [if_pos h3, if_neg]
    unfold CutDef.viol
    dsimp only
    rw [sec_sparse]
    have h4 := small_out S (Finset.mem_powerset.2 hs) (Finset.nonempty_iff_ne_empty.1 h1) h2
    have h5 : out 8 (fun a b => small (id (8 * a + b))) S = ((∑ a ∈ Finset.range 8, ∑ b ∈ Finset.range 8,
        if a ∈ S ∧ ¬ b ∈ S then (if (a + 1) % 8 = b then 99946 else 9) else 0 : Nat) : ℚ) / 100000 := by
      unfold out
      push_cast
      rw [Finset.sum_div]
      refine Finset.sum_congr rfl fun a _ => ?_
      rw [Finset.sum_div]
      refine Finset.sum_congr rfl fun b hb => ?_
      have hb := Finset.mem_range.1 hb
      split_ifs with h6 h7
      · have : (8 * a + b) / 8 = a ∧ (8 * a + b) % 8 = b := by omega
        have hab : a ≠ b := by rintro rfl; exact h6.2 h6.1
        simp [small, this, hab, h7]
      · have : (8 * a + b) / 8 = a ∧ (8 * a + b) % 8 = b := by omega
        have hab : a ≠ b := by rintro rfl; exact h6.2 h6.1
        simp [small, this, hab, h7]
      · simp
    rw [h5]
    have h6 : (100000 : ℚ) ≤ ((∑ a ∈ Finset.range 8, ∑ b ∈ Finset.range 8,
        if a ∈ S ∧ ¬ b ∈ S then (if (a + 1) % 8 = b then 99946 else 9) else 0 : Nat) : ℚ) := by exact_mod_cast h4
    intro h7
    linarith
  · rfl

/-! ## Element cuts -/

/-- What `(ix, ib)` adds to the left side minus the right side, when it is chosen (`fi`) or not. -/
def gain (lb ub y : Nat → ℚ) (fi : Bool) (t : Nat × Nat) : ℚ :=
  if fi = true then y t.1 + lb t.1 * y t.2 - lb t.1 else ub t.1 * y t.2

/-- The choice of the generator. -/
def chosen (lb ub x : Nat → ℚ) (t : Nat × Nat) : Bool := decide (x t.1 + lb t.1 * (x t.2 - 1) - ub t.1 * x t.2 < 0)

theorem viol_add (c : CutDef) (i : Nat) (a : ℚ) (y : Nat → ℚ) : (c.addVar i a).viol y = c.viol y - a * y i := by
  unfold CutDef.addVar CutDef.viol
  dsimp only
  rw [sparse_eq, sparse_eq, List.map_append, List.sum_append]
  simp
  ring

theorem viol_step (lb ub x y : Nat → ℚ) (c : CutDef) (t : Nat × Nat) :
    (xbzStep lb ub x c t).viol y = c.viol y - gain lb ub y (chosen lb ub x t) t := by
  unfold xbzStep gain chosen
  by_cases h : x t.1 + lb t.1 * (x t.2 - 1) - ub t.1 * x t.2 < 0
  · simp only [h, if_true, decide_true]
    have e : ∀ c : CutDef, ∀ r, (⟨c.terms, c.rhs + r⟩ : CutDef).viol y = c.viol y + r := by
      intro c r; unfold CutDef.viol; dsimp only; ring
    rw [e, viol_add, viol_add]
    ring
  · simp only [h, if_false, decide_false, Bool.false_eq_true]
    rw [viol_add]

theorem viol_fold (lb ub x y : Nat → ℚ) (vars : List (Nat × Nat)) (c : CutDef) :
    (vars.foldl (xbzStep lb ub x) c).viol y = c.viol y - (vars.map fun t => gain lb ub y (chosen lb ub x t) t).sum := by
  induction vars generalizing c with
  | nil => simp
  | cons t ts ih => rw [List.foldl_cons, ih, viol_step, List.map_cons, List.sum_cons]; ring

theorem viol_start (z : Nat) (y : Nat → ℚ) : ((⟨[], 0⟩ : CutDef).addVar z (-1)).viol y = y z := by
  rw [viol_add]; unfold CutDef.viol; simp [sparse_eq]

/-- The cut with a given choice of the elements: `z <= ∑ (x + lb * b - lb) + ∑ ub * b`. -/
def XbzCut (lb ub : Nat → ℚ) (vars : List (Nat × Nat)) (z : Nat) (choice : Nat × Nat → Bool) (y : Nat → ℚ) : ℚ :=
  y z - (vars.map fun t => if choice t = true then y t.1 + lb t.1 * y t.2 - lb t.1 else ub t.1 * y t.2).sum

theorem gain_sum {lb ub y : Nat → ℚ} (choice : Nat × Nat → Bool) {l1 l2 : List (Nat × Nat)} {t : Nat × Nat}
    (hb : ∀ u ∈ l1 ++ t :: l2, lb u.1 ≤ y u.1 ∧ y u.1 ≤ ub u.1) (h1 : y t.2 = 1) (h0 : ∀ u ∈ l1 ++ l2, y u.2 = 0) :
    y t.1 ≤ ((l1 ++ t :: l2).map fun u => gain lb ub y (choice u) u).sum := by
  have hz : ∀ u ∈ l1 ++ l2, 0 ≤ gain lb ub y (choice u) u := by
    intro u hu
    have h2 := hb u (by simp only [List.mem_append, List.mem_cons] at hu ⊢; tauto)
    unfold gain
    rw [h0 u hu]
    split_ifs <;> linarith
  have ht : y t.1 ≤ gain lb ub y (choice t) t := by
    have h2 := hb t (by simp)
    unfold gain
    rw [h1]
    split_ifs <;> linarith
  rw [List.map_append, List.sum_append, List.map_cons, List.sum_cons]
  have e1 : 0 ≤ (l1.map fun u => gain lb ub y (choice u) u).sum :=
    List.sum_nonneg fun q hq => by
      obtain ⟨u, hu, rfl⟩ := List.mem_map.1 hq
      exact hz u (List.mem_append_left _ hu)
  have e2 : 0 ≤ (l2.map fun u => gain lb ub y (choice u) u).sum :=
    List.sum_nonneg fun q hq => by
      obtain ⟨u, hu, rfl⟩ := List.mem_map.1 hq
      exact hz u (List.mem_append_right _ hu)
  linarith

/-- An element cut holds whenever the result is the element whose Boolean is set and the elements are within their bounds; the point
that it was generated for violates it. -/
theorem _root_.MZ.C84_xbz_valid {lb ub x : Nat → ℚ} {vars : List (Nat × Nat)} {z : Nat} {c : CutDef}
    (h : xbzGenerate lb ub vars z x = .cut c) :
    ¬ c.Holds x ∧ ∀ (y : Nat → ℚ) (l1 l2 : List (Nat × Nat)) (t : Nat × Nat), vars = l1 ++ t :: l2 →
      (∀ u ∈ vars, lb u.1 ≤ y u.1 ∧ y u.1 ≤ ub u.1) → y t.2 = 1 → (∀ u ∈ l1 ++ l2, y u.2 = 0) → y z = y t.1 → c.Holds y := by
  unfold xbzGenerate at h
  dsimp only at h
  split_ifs at h with hv
  injection h with h
  subst h
  constructor
  · intro hh
    unfold CutDef.Holds at hh
    unfold CutDef.viol at hv
    linarith
  · rintro y l1 l2 t rfl hb h1 h0 hz
    have hg := gain_sum (lb := lb) (ub := ub) (chosen lb ub x) hb h1 h0
    have hf := viol_fold lb ub x y (l1 ++ t :: l2) ((⟨[], 0⟩ : CutDef).addVar z (-1))
    rw [viol_start] at hf
    unfold CutDef.viol at hf
    unfold CutDef.Holds
    linarith

/-- The generator finds a cut whenever some choice of the elements gives one that is violated by more than 0.01, and the cut that it
returns is violated at least as much. -/
theorem _root_.MZ.C84_xbz_best {lb ub x : Nat → ℚ} {vars : List (Nat × Nat)} {z : Nat} (choice : Nat × Nat → Bool)
    (h : XbzCut lb ub vars z choice x > 1 / 100) :
    ∃ c, xbzGenerate lb ub vars z x = .cut c ∧ c.viol x ≥ XbzCut lb ub vars z choice x := by
  have hle : XbzCut lb ub vars z choice x ≤ (vars.foldl (xbzStep lb ub x) ((⟨[], 0⟩ : CutDef).addVar z (-1))).viol x := by
    rw [viol_fold, viol_start]
    unfold XbzCut
    have : (vars.map fun t => gain lb ub x (chosen lb ub x t) t).sum ≤
        (vars.map fun t => if choice t = true then x t.1 + lb t.1 * x t.2 - lb t.1 else ub t.1 * x t.2).sum := by
      refine List.sum_le_sum fun t _ => ?_
      unfold gain chosen
      by_cases hc : x t.1 + lb t.1 * (x t.2 - 1) - ub t.1 * x t.2 < 0
      · rw [decide_eq_true hc, if_pos rfl]
        split_ifs <;> linarith
      · rw [decide_eq_false hc, if_neg (by simp)]
        split_ifs <;> linarith
    linarith
  unfold xbzGenerate
  dsimp only
  rw [if_pos (lt_of_lt_of_le h hle)]
  exact ⟨_, rfl, hle⟩

/-! ## The circuit of the linear library -/

open MZ.Globals MZ.LinLib MZ.LinArith MZ.Graph MZ.Graph.Spec in
/-- The successors numbered from 0 on. -/
def shift (f : Arr Int) (i : Nat) : Nat := (f.val (f.lo + i) - f.lo).toNat

open MZ.Globals in
/-- What `circuit__SECcuts` means to the solver: the matrix of `f`, whose rows and columns sum to 1 and whose diagonal is 0 (the
assignment constraints, which are posted as well), is accepted by the generator.  Fewer than two nodes do not reach it. -/
def accepted (minCut : Nat → (Nat → Nat → ℚ) → Option (Finset Nat × ℚ)) (f : Arr Int) : Prop :=
  if f.len ≤ 1 then MZ.Graph.Spec.Circuit f
  else (∀ i ∈ f.idx, f.val i ∈ f.idx \ {i}) ∧ (∀ i ∈ f.idx, ∀ j ∈ f.idx, f.val i = f.val j → i = j) ∧
    secGenerate minCut f.len.toNat id (fun c => if shift f (c / f.len.toNat) = c % f.len.toNat then 1 else 0) = .noCut

open MZ.Globals MZ.LinLib MZ.LinArith MZ.Graph MZ.Graph.Spec in
theorem accepted_iff {minCut : Nat → (Nat → Nat → ℚ) → Option (Finset Nat × ℚ)} (hm : MinCutSpec minCut) (f : Arr Int) :
    accepted minCut f ↔ Circuit f := by
  unfold accepted
  split_ifs with hl
  · rfl
  have hlen : f.len = f.hi + 1 - f.lo ∧ 2 ≤ f.len := by
    unfold Arr.len Arr.idx at hl ⊢
    rw [Int.card_Icc] at hl ⊢
    omega
  generalize hn : f.len.toNat = n
  have hnl : (n : Int) = f.hi + 1 - f.lo := by omega
  have hn2 : 2 ≤ n := by omega
  have hp : Point n id (shift f) (fun c => if shift f (c / n) = c % n then 1 else 0) := by
    intro i hi j hj
    have h1 : (n * i + j) / n = i := by rw [Nat.mul_add_div (by omega), Nat.div_eq_of_lt hj, Nat.add_zero]
    have h2 : (n * i + j) % n = j := by rw [Nat.mul_add_mod, Nat.mod_eq_of_lt hj]
    simp only [id, h1, h2]
  have hmem : ∀ i : Nat, i < n → f.lo + i ∈ f.idx := fun i hi => (Arr.mem_idx _ _).2 ⟨by omega, by omega⟩
  have hback : ∀ i ∈ f.idx, ∃ k : Nat, k < n ∧ i = f.lo + k := fun i hi => by
    have := (Arr.mem_idx _ _).1 hi
    exact ⟨(i - f.lo).toNat, by omega, by omega⟩
  have hshift : (∀ i ∈ f.idx, f.val i ∈ f.idx) → ∀ i : Nat, i < n → f.lo + (shift f i : Int) = f.val (f.lo + i) := by
    intro h i hi
    have := (Arr.mem_idx _ _).1 (h _ (hmem i hi))
    unfold shift
    omega
  have hiter : (h : ∀ i ∈ f.idx, f.val i ∈ f.idx) → ∀ (k i : Nat), i < n →
      (shift f)^[k] i < n ∧ f.lo + ((shift f)^[k] i : Int) = f.val^[k] (f.lo + i) := by
    intro h k i hi
    induction k with
    | zero => exact ⟨hi, rfl⟩
    | succ k ih =>
      rw [Function.iterate_succ_apply', Function.iterate_succ_apply', ← ih.2, ← hshift h _ ih.1]
      have := (Arr.mem_idx _ _).1 (h _ (hmem _ ih.1))
      rw [← hshift h _ ih.1] at this
      exact ⟨by omega, rfl⟩
  have hcirc : (∀ i ∈ f.idx, f.val i ∈ f.idx) → (IsCircuit n (shift f) ↔ Circuit f) := by
    intro h
    constructor
    · rintro ⟨-, h2⟩
      refine ⟨h, fun i hi j hj => ?_⟩
      obtain ⟨a, ha, rfl⟩ := hback i hi
      obtain ⟨b, hb, rfl⟩ := hback j hj
      obtain ⟨k, hk⟩ := h2 a ha b hb
      exact ⟨k, by rw [← (hiter h k a ha).2, hk]⟩
    · rintro ⟨-, h2⟩
      refine ⟨fun i hi => (hiter h 1 i hi).1, fun i hi j hj => ?_⟩
      obtain ⟨k, hk⟩ := h2 _ (hmem i hi) _ (hmem j hj)
      rw [← (hiter h k i hi).2] at hk
      exact ⟨k, by omega⟩
  have key : (∀ i ∈ f.idx, f.val i ∈ f.idx \ {i}) → (∀ i ∈ f.idx, ∀ j ∈ f.idx, f.val i = f.val j → i = j) →
      (secGenerate minCut n id (fun c => if shift f (c / n) = c % n then 1 else 0) = .noCut ↔ Circuit f) := by
    intro h1 h2
    have h1' : ∀ i ∈ f.idx, f.val i ∈ f.idx := fun i hi => (Finset.mem_sdiff.1 (h1 i hi)).1
    rw [← hcirc h1']
    refine (MZ.C84_sec_exact hm hn2 hp (fun i hi => (hiter h1' 1 i hi).1) ?_ ?_).1
    · intro i hi e
      have := (Finset.mem_sdiff.1 (h1 _ (hmem i hi))).2
      rw [← hshift h1' i hi, e] at this
      simp at this
    · intro i hi j hj e
      have := h2 _ (hmem i hi) _ (hmem j hj) (by rw [← hshift h1' i hi, ← hshift h1' j hj, e])
      omega
  constructor
  · rintro ⟨h1, h2, h3⟩
    exact (key h1 h2).1 h3
  · intro hc
    have hsurj : ∀ j ∈ f.idx, ∃ i ∈ f.idx, f.val i = j := by
      intro j hj
      -- the successor of a node leads back to it
      obtain ⟨k, hk⟩ := hc.2 (f.val j) (hc.1 j hj) j hj
      cases k with
      | zero => exact ⟨j, hj, by simpa using hk⟩
      | succ k =>
        rw [Function.iterate_succ_apply'] at hk
        exact ⟨_, iterate_mem hc.1 k (f.val j) (hc.1 j hj), hk⟩
    have hinj := inj_of_surj hc.1 hsurj
    have hne : ∀ i ∈ f.idx, f.val i ∈ f.idx \ {i} := by
      intro i hi
      refine Finset.mem_sdiff.2 ⟨hc.1 i hi, fun h => ?_⟩
      have h := Finset.mem_singleton.1 h
      obtain ⟨a, ha, rfl⟩ := hback i hi
      -- another node
      obtain ⟨k, hk⟩ := hc.2 _ hi (f.lo + (if a = 0 then 1 else 0 : Nat)) (hmem _ (by split_ifs <;> omega))
      have : ∀ k, f.val^[k] (f.lo + a) = f.lo + a := fun k => by
        induction k with
        | zero => rfl
        | succ k ih => rw [Function.iterate_succ_apply', ih, h]
      rw [this] at hk
      split_ifs at hk <;> omega
    exact ⟨hne, hinj, (key hne hinj).2 hc⟩

open MZ.Globals MZ.LinLib MZ.LinArith MZ.Graph MZ.Graph.Spec in
/-- `circuit` in the linear library with the cuts that the generator adds, for every number of rounds of order constraints
(`nSECcuts`): this removes the assumption about `circuit__SECcuts` from `C82_circuit`. -/
theorem _root_.MZ.C84_circuit {minCut : Nat → (Nat → Nat → ℚ) → Option (Finset Nat × ℚ)} (hm : MinCutSpec minCut) (o : Opts)
    (sec : Int) (xs : Arr V) : MZ.LinGlob.circuit o sec (accepted minCut) xs ↔ xs.len ≠ 1 ∧ Circuit (MZ.LinGlob.vals xs) :=
  ⟨MZ.LinGlob.circuit_sound o sec _ (fun f => (accepted_iff hm f).1) xs,
    fun h => MZ.LinGlob.circuit_complete o sec _ (fun f => (accepted_iff hm f).2) xs h.1 h.2⟩

/-! ## Examples -/

/-- A minimum cut algorithm exists: try all cuts. -/
theorem minCut_exists : ∃ minCut, MinCutSpec minCut := by
  classical
  have : ∀ (n : Nat) (w : Nat → Nat → ℚ), ∃ r : Option (Finset Nat × ℚ), 2 ≤ n → ∃ S v, r = some (S, v) ∧ S ⊆ Finset.range n ∧
      S.Nonempty ∧ S ≠ Finset.range n ∧ v = cutWeight n w S ∧
      ∀ T ⊆ Finset.range n, T.Nonempty → T ≠ Finset.range n → v ≤ cutWeight n w T := by
    intro n w
    by_cases hn : 2 ≤ n
    · let A := (Finset.range n).powerset.filter fun T => T.Nonempty ∧ T ≠ Finset.range n
      have hA : A.Nonempty := ⟨{0}, Finset.mem_filter.2 ⟨Finset.mem_powerset.2 (by intro a ha; simp at ha ⊢; omega), by simp, by
        intro h
        have : 1 ∈ ({0} : Finset Nat) := by rw [h]; exact Finset.mem_range.2 (by omega)
        simp at this⟩⟩
      obtain ⟨S, hS, hmin⟩ := A.exists_min_image (cutWeight n w) hA
      obtain ⟨h1, h2, h3⟩ := Finset.mem_filter.1 hS
      exact ⟨some (S, cutWeight n w S), fun _ => ⟨S, _, rfl, Finset.mem_powerset.1 h1, h2, h3, rfl, fun T hT h4 h5 =>
        hmin T (Finset.mem_filter.2 ⟨Finset.mem_powerset.2 hT, h4, h5⟩)⟩⟩
    · exact ⟨none, fun h => absurd h hn⟩
  choose m hm using this
  exact ⟨m, fun n w hn _ => hm n w hn⟩

/-- Two subtours of two nodes get a cut. -/
example (minCut : Nat → (Nat → Nat → ℚ) → Option (Finset Nat × ℚ)) (hm : MinCutSpec minCut) :
    ∃ c, secGenerate minCut 4 id (fun c => if (c / 4) ^^^ 1 = c % 4 then 1 else 0) = .cut c ∧
      ¬ c.Holds (fun c => if (c / 4) ^^^ 1 = c % 4 then 1 else 0) := by
  refine (MZ.C84_sec_exact hm (by decide) (f := fun i => i ^^^ 1) ?_ (by decide) (by decide) (by decide)).2 ?_
  · intro i hi j hj
    have h1 : (4 * i + j) / 4 = i := by omega
    have h2 : (4 * i + j) % 4 = j := by omega
    simp only [id, h1, h2]
  · rintro ⟨-, h⟩
    obtain ⟨k, hk⟩ := h 0 (by decide) 2 (by decide)
    have : ∀ k : Nat, (fun i => i ^^^ 1)^[k] 0 < 2 := by
      intro k
      induction k with
      | zero => decide
      | succ k ih =>
        rw [Function.iterate_succ_apply']
        generalize (fun i => i ^^^ 1)^[k] 0 = m at ih ⊢
        have h3 : m = 0 ∨ m = 1 := by omega
        rcases h3 with rfl | rfl <;> decide
    have := this k
    omega

/-- A fractional point gets an element cut. -/
example : ∃ c, xbzGenerate (fun _ => 0) (fun _ => 10) [(0, 1), (2, 3)] 4
    (fun i => if i = 0 then 2 else if i = 2 then 3 else if i = 4 then 9 else 1 / 2) = .cut c :=
  (MZ.C84_xbz_best (fun _ => true) (by unfold XbzCut; norm_num)).imp fun _ h => h.1

end MZ.MipCuts
