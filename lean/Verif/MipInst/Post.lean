import Verif.MipInst.Spec
import Mathlib.Tactic.Linarith
import Mathlib.Tactic.Ring
import Mathlib.Tactic.Push
import Mathlib.Tactic.NormNum

/-! # Constraints -/

namespace MZ
namespace MipInst

/-! ## Scopes -/

/-- The columns of a constraint. -/
def Gen.idx : Gen → List Nat
  | .indicator b _ ts _ _ => b :: ts.map Prod.fst
  | .minimum r l => r :: l
  | .times a b c => [a, b, c]
  | .boundsDisj l lF => (l ++ lF).map (fun p => p.2.2)
  | .cumulative l _ => l.map Prod.fst
  | .lexLesseq l _ => l.map Prod.fst ++ l.map Prod.snd
  | .lexChain _ _ l _ _ _ => l

/-- Everything refers to columns of the problem. -/
structure Good (m : Mip) : Prop where
  names : ∀ n k, m.names n = some k → k < m.cols.length
  rows : ∀ r ∈ m.rows, ∀ t ∈ r.terms, t.1 < m.cols.length
  gens : ∀ g ∈ m.gens, ∀ k ∈ g.idx, k < m.cols.length

/-- The same values for the first columns. -/
def Agree (n : Nat) (x y : Nat → Rat) : Prop := ∀ j < n, x j = y j

theorem evalTerms_congr {x y : Nat → Rat} {n : Nat} (h : Agree n x y) {l : List (Nat × Rat)} (hl : ∀ t ∈ l, t.1 < n) : evalTerms x l = evalTerms y l := by
  unfold evalTerms
  congr 1
  apply List.map_congr_left
  intro t ht
  rw [h _ (hl t ht)]

theorem Row.Ok_congr {x y : Nat → Rat} {n : Nat} (h : Agree n x y) {r : Row} (hr : ∀ t ∈ r.terms, t.1 < n) : r.Ok x ↔ r.Ok y := by
  unfold Row.Ok
  rw [evalTerms_congr h hr]

theorem Gen.Ok_congr {x y : Nat → Rat} {n : Nat} (h : Agree n x y) {g : Gen} (hg : ∀ k ∈ g.idx, k < n) : g.Ok x ↔ g.Ok y := by
  cases g with
  | indicator b v ts s rhs =>
    have h1 : x b = y b := h b (hg b (by simp [Gen.idx]))
    have h2 : evalTerms x ts = evalTerms y ts := evalTerms_congr h fun t ht => hg t.1 (by
      simp only [Gen.idx, List.mem_cons, List.mem_map]
      exact Or.inr ⟨t, ht, rfl⟩)
    simp only [Gen.Ok, h1, h2]
  | minimum r l =>
    have h1 : x r = y r := h r (hg r (by simp [Gen.idx]))
    have h2 : l.map x = l.map y := List.map_congr_left fun k hk => h k (hg k (by simp [Gen.idx, hk]))
    simp only [Gen.Ok, h1, h2]
  | times a b c =>
    have h1 : x a = y a := h a (hg a (by simp [Gen.idx]))
    have h2 : x b = y b := h b (hg b (by simp [Gen.idx]))
    have h3 : x c = y c := h c (hg c (by simp [Gen.idx]))
    simp only [Gen.Ok, h1, h2, h3]
  | boundsDisj l lF =>
    have : ∀ p ∈ l ++ lF, x p.2.2 = y p.2.2 := fun p hp => h _ (hg _ (by
      simp only [Gen.idx, List.mem_map]
      exact ⟨p, hp, rfl⟩))
    simp only [Gen.Ok]
    constructor
    · rintro ⟨p, hp, hb⟩
      exact ⟨p, hp, this p hp ▸ hb⟩
    · rintro ⟨p, hp, hb⟩
      exact ⟨p, hp, (this p hp).symm ▸ hb⟩
  | cumulative l b =>
    have : l.map (fun p => (x p.1, p.2)) = l.map (fun p => (y p.1, p.2)) := List.map_congr_left fun p hp => by
      rw [h _ (hg p.1 (by simp only [Gen.idx, List.mem_map]; exact ⟨p, hp, rfl⟩))]
    simp only [Gen.Ok, this]
  | lexLesseq l t =>
    have : l.map (fun p => (x p.1, x p.2)) = l.map (fun p => (y p.1, y p.2)) := List.map_congr_left fun p hp => by
      rw [h _ (hg p.1 (by simp only [Gen.idx, List.mem_append, List.mem_map]; exact Or.inl ⟨p, hp, rfl⟩)),
        h _ (hg p.2 (by simp only [Gen.idx, List.mem_append, List.mem_map]; exact Or.inr ⟨p, hp, rfl⟩))]
    simp only [Gen.Ok, this]
  | lexChain m n l k p t =>
    have h2 : l.map x = l.map y := List.map_congr_left fun k hk => h k (hg k (by simp [Gen.idx, hk]))
    simp only [Gen.Ok, h2]

theorem values_congr {m : Mip} (hm : Good m) {x y : Nat → Rat} (h : Agree m.cols.length x y) : m.values x = m.values y := by
  funext n
  unfold Mip.values
  cases hk : m.names n with
  | none => rfl
  | some k => exact h k (hm.names n k hk)

/-! ## Steps -/

/-- A change of the problem that adds a condition on the values of the variables. -/
structure Step (inf : Rat) (m m' : Mip) (P : (Nat → Rat) → Prop) : Prop where
  good : Good m → Good m'
  names : m'.names = m.names
  len : m.cols.length ≤ m'.cols.length
  sound : ∀ x, m'.Feasible inf x → m.Feasible inf x ∧ P (m.values x)
  complete : Good m → ∀ x, m.Feasible inf x → P (m.values x) → ∃ x', Agree m.cols.length x x' ∧ m'.Feasible inf x'
  obj : ∀ x, m'.objective x = m.objective x

theorem Step.trans {inf : Rat} {m₁ m₂ m₃ : Mip} {P Q : (Nat → Rat) → Prop} (h : Step inf m₁ m₂ P) (h' : Step inf m₂ m₃ Q) :
    Step inf m₁ m₃ (fun σ => P σ ∧ Q σ) where
  good := fun g => h'.good (h.good g)
  names := h'.names.trans h.names
  len := h.len.trans h'.len
  sound := by
    intro x hx
    obtain ⟨h1, h2⟩ := h'.sound x hx
    obtain ⟨h3, h4⟩ := h.sound x h1
    refine ⟨h3, h4, ?_⟩
    have : m₂.values x = m₁.values x := by unfold Mip.values; rw [h.names]
    rwa [this] at h2
  complete := by
    intro g x hx ⟨hp, hq⟩
    obtain ⟨y, h1, h2⟩ := h.complete g x hx hp
    have hv : m₁.values x = m₂.values y := by
      rw [values_congr g h1]
      unfold Mip.values
      rw [h.names]
    rw [hv] at hq
    obtain ⟨z, h3, h4⟩ := h'.complete (h.good g) y h2 hq
    exact ⟨z, fun j hj => (h1 j hj).trans (h3 j (hj.trans_le h.len)), h4⟩
  obj := fun x => (h'.obj x).trans (h.obj x)

theorem Step.refl (inf : Rat) (m : Mip) {P : (Nat → Rat) → Prop} (h : ∀ x, P (m.values x)) : Step inf m m P where
  good := id
  names := rfl
  len := le_refl _
  sound := fun _ hx => ⟨hx, h _⟩
  complete := fun _ x hx _ => ⟨x, fun _ _ => rfl, hx⟩
  obj := fun _ => rfl

theorem Step.unsat (inf : Rat) (m : Mip) {P : (Nat → Rat) → Prop} (h : ∀ x, ¬ P (m.values x)) : Step inf m (setUnsat m) P where
  good := fun g => ⟨g.names, g.rows, g.gens⟩
  names := rfl
  len := le_refl _
  sound := fun _ hx => absurd hx.sat (by simp [setUnsat])
  complete := fun _ _ _ hp => absurd hp (h _)
  obj := fun _ => rfl

theorem Step.row (inf : Rat) (m : Mip) (r : Row) (hr : Good m → ∀ t ∈ r.terms, t.1 < m.cols.length) {P : (Nat → Rat) → Prop}
    (h : ∀ x, r.Ok x ↔ P (m.values x)) : Step inf m (addRow m r) P where
  good := fun g => by
    refine ⟨g.names, ?_, g.gens⟩
    intro r' h'
    simp only [addRow, List.mem_append, List.mem_singleton] at h'
    rcases h' with h' | rfl
    · exact g.rows r' h'
    · exact hr g
  names := rfl
  len := le_refl _
  sound := fun x hx => ⟨⟨hx.sat, hx.cols, fun r' h' => hx.rows r' (by simp [addRow, h']), hx.gens⟩, (h x).mp (hx.rows r (by simp [addRow]))⟩
  complete := fun _ x hx hp => ⟨x, fun _ _ => rfl, hx.sat, hx.cols, by
    intro r' h'
    simp only [addRow, List.mem_append, List.mem_singleton] at h'
    rcases h' with h' | rfl
    · exact hx.rows r' h'
    · exact (h x).mpr hp, hx.gens⟩
  obj := fun _ => rfl

/-! ## Columns for literals -/

/-- The columns of literals. -/
def litCol (v : Rat) : Col := ⟨0, v, v, .real⟩

/-- A problem with columns for literals. -/
def withLits (m : Mip) (vs : List Rat) : Mip := { m with cols := m.cols ++ vs.map litCol }

theorem withLits_withLits (m : Mip) (vs ws : List Rat) : withLits (withLits m vs) ws = withLits m (vs ++ ws) := by
  simp [withLits]

theorem withLits_nil (m : Mip) : withLits m [] = m := by simp [withLits]

/-- The columns of literals have their values. -/
def LitsAt (m : Mip) (vs : List Rat) (x : Nat → Rat) : Prop := ∀ (i : Nat) (v : Rat), vs[i]? = some v → x (m.cols.length + i) = v

theorem litCol_ok {inf v w : Rat} (hv : Within inf v) : (litCol v).Ok inf w ↔ w = v := by
  constructor
  · intro h
    exact le_antisymm (h.ub hv.2) (h.lb hv.1)
  · rintro rfl
    exact ⟨fun _ => le_refl _, fun _ => le_refl _, by simp [litCol], by simp [litCol]⟩

theorem feasible_withLits {inf : Rat} (m : Mip) (vs : List Rat) (hv : ∀ v ∈ vs, Within inf v) (x : Nat → Rat) :
    (withLits m vs).Feasible inf x ↔ m.Feasible inf x ∧ LitsAt m vs x := by
  constructor
  · intro h
    refine ⟨⟨h.sat, fun j c hc => h.cols j c ?_, h.rows, h.gens⟩, ?_⟩
    · have : j < m.cols.length := (List.getElem?_eq_some_iff.mp hc).1
      simp only [withLits]
      rw [List.getElem?_append_left this, hc]
    · intro i v hi
      refine (litCol_ok (hv v (List.mem_of_getElem? hi))).mp (h.cols _ (litCol v) ?_)
      simp only [withLits]
      rw [List.getElem?_append_right (by omega), Nat.add_sub_cancel_left, List.getElem?_map, hi]
      rfl
  · rintro ⟨h, hl⟩
    refine ⟨h.sat, ?_, h.rows, h.gens⟩
    intro j c hc
    simp only [withLits] at hc
    by_cases hj : j < m.cols.length
    · rw [List.getElem?_append_left hj] at hc
      exact h.cols j c hc
    · rw [List.getElem?_append_right (by omega), List.getElem?_map, Option.map_eq_some_iff] at hc
      obtain ⟨v, h1, rfl⟩ := hc
      have := hl _ v h1
      rw [show m.cols.length + (j - m.cols.length) = j by omega] at this
      exact (litCol_ok (hv v (List.mem_of_getElem? h1))).mpr this

theorem values_withLits (m : Mip) (vs : List Rat) (x : Nat → Rat) : (withLits m vs).values x = m.values x := rfl

theorem objective_withLits (m : Mip) (vs : List Rat) (x : Nat → Rat) : (withLits m vs).objective x = m.objective x := by
  unfold Mip.objective
  simp only [withLits, List.length_append, List.length_map]
  rw [Finset.sum_range_add]
  have h1 : ∀ j ∈ Finset.range m.cols.length, (((m.cols ++ vs.map litCol)[j]?.map Col.obj).getD 0) * x j = ((m.cols[j]?.map Col.obj).getD 0) * x j := by
    intro j hj
    rw [List.getElem?_append_left (Finset.mem_range.mp hj)]
  have h2 : ∀ j ∈ Finset.range vs.length, (((m.cols ++ vs.map litCol)[m.cols.length + j]?.map Col.obj).getD 0) * x (m.cols.length + j) = 0 := by
    intro j hj
    rw [List.getElem?_append_right (by omega), Nat.add_sub_cancel_left, List.getElem?_map]
    cases vs[j]? <;> simp [litCol]
  rw [Finset.sum_congr rfl h1, Finset.sum_congr rfl h2]
  simp

theorem exprToVars_spec {inf : Rat} (m : Mip) (hm : Good m) : ∀ (as : List Arg) (_ : ∀ n, .var n ∈ as → ∃ k, m.names n = some k)
    (_ : ∀ v, .lit v ∈ as → Within inf v) (pre : List Rat), ∃ vs ks, exprToVars (withLits m pre) as = .ok (withLits m (pre ++ vs), ks) ∧
      (∀ v ∈ vs, Within inf v) ∧ ks.length = as.length ∧ (∀ k ∈ ks, k < m.cols.length + (pre ++ vs).length) ∧
      ∀ x, LitsAt m (pre ++ vs) x → ks.map x = as.map (Arg.value (m.values x))
  | [], _, _, pre => ⟨[], [], by simp [exprToVars], by simp, rfl, by simp, by simp⟩
  | .var n :: as, hd, hl, pre => by
    obtain ⟨k, hk⟩ := hd n (by simp)
    obtain ⟨vs, ks, h1, h2, h3, h4, h5⟩ := exprToVars_spec m hm as (fun n hn => hd n (by simp [hn])) (fun v hv => hl v (by simp [hv])) pre
    have hk' : (withLits m pre).names n = some k := hk
    refine ⟨vs, k :: ks, ?_, h2, by simp [h3], ?_, ?_⟩
    · simp only [exprToVars, exprToVar, hk', Res.ok_bind, h1]
    · intro k' hk''
      simp only [List.mem_cons] at hk''
      rcases hk'' with rfl | h
      · have := hm.names n k' hk
        omega
      · exact h4 k' h
    · intro x hx
      rw [List.map_cons, List.map_cons, h5 x hx]
      congr 1
      simp [Arg.value, Mip.values, hk]
  | .lit v :: as, hd, hl, pre => by
    obtain ⟨vs, ks, h1, h2, h3, h4, h5⟩ := exprToVars_spec m hm as (fun n hn => hd n (by simp [hn])) (fun v hv => hl v (by simp [hv])) (pre ++ [v])
    have he : addLitVar (withLits m pre) v = (withLits m (pre ++ [v]), m.cols.length + pre.length) := by
      rw [← withLits_withLits]
      simp [addLitVar, addVar, withLits, litCol]
    have ha : pre ++ [v] ++ vs = pre ++ v :: vs := by simp
    rw [ha] at h1 h4 h5
    refine ⟨v :: vs, (m.cols.length + pre.length) :: ks, ?_, ?_, by simp [h3], ?_, ?_⟩
    · simp only [exprToVars, exprToVar, he, Res.ok_bind, h1]
    · intro w hw
      simp only [List.mem_cons] at hw
      rcases hw with rfl | hw
      · exact hl w (by simp)
      · exact h2 w hw
    · intro k' hk''
      simp only [List.mem_cons] at hk''
      rcases hk'' with rfl | h
      · simp
      · exact h4 k' h
    · intro x hx
      rw [List.map_cons, List.map_cons, h5 x hx]
      congr 1
      exact hx pre.length v (by simp)

theorem exprToVars_append : ∀ (m : Mip) (as bs : List Arg), exprToVars m (as ++ bs) = (do
    let (m, ka) ← exprToVars m as
    let (m, kb) ← exprToVars m bs
    .ok (m, ka ++ kb))
  | m, [], bs => by
    simp only [List.nil_append, exprToVars, Res.ok_bind]
    cases exprToVars m bs <;> rfl
  | m, a :: as, bs => by
    simp only [List.cons_append, exprToVars]
    cases h : exprToVar m a with
    | ok p =>
      simp only [Res.ok_bind]
      rw [exprToVars_append p.1 as bs]
      cases exprToVars p.1 as with
      | ok q =>
        simp only [Res.ok_bind]
        cases exprToVars q.1 bs <;> rfl
      | err => rfl
      | ub => rfl
    | err => rfl
    | ub => rfl

theorem Step.gen (inf : Rat) (m : Mip) (vs : List Rat) (hv : ∀ v ∈ vs, Within inf v) (g : Gen) (hg : ∀ k ∈ g.idx, k < m.cols.length + vs.length)
    {P : (Nat → Rat) → Prop} (h : ∀ x, LitsAt m vs x → (g.Ok x ↔ P (m.values x))) : Step inf m (addGen (withLits m vs) g) P where
  good := fun G => by
    refine ⟨?_, ?_, ?_⟩
    · intro n k hk
      have := G.names n k hk
      simp only [addGen, withLits, List.length_append]
      omega
    · intro r hr t ht
      have := G.rows r hr t ht
      simp only [addGen, withLits, List.length_append]
      omega
    · intro g' hg' k hk
      simp only [addGen, withLits, List.mem_append, List.mem_singleton] at hg'
      simp only [addGen, withLits, List.length_append, List.length_map]
      rcases hg' with hg' | rfl
      · have := G.gens g' hg' k hk
        omega
      · exact hg k hk
  names := rfl
  len := by simp [addGen, withLits]
  sound := fun x hx => by
    have h1 : (withLits m vs).Feasible inf x := ⟨hx.sat, hx.cols, hx.rows, fun g' hg' => hx.gens g' (by
      simp only [addGen, List.mem_append]
      exact Or.inl hg')⟩
    rw [feasible_withLits m vs hv] at h1
    exact ⟨h1.1, (h x h1.2).mp (hx.gens g (by simp [addGen]))⟩
  complete := fun G x hx hp => by
    let y : Nat → Rat := fun j => if j < m.cols.length then x j else (vs[j - m.cols.length]?).getD 0
    have hy : Agree m.cols.length x y := fun j hj => by simp [y, hj]
    have hl : LitsAt m vs y := by
      intro i v hi
      simp [y, hi]
    have hf : m.Feasible inf y := by
      refine ⟨hx.sat, ?_, ?_, ?_⟩
      · intro j c hc
        rw [← hy j (List.getElem?_eq_some_iff.mp hc).1]
        exact hx.cols j c hc
      · intro r hr
        exact (Row.Ok_congr hy (G.rows r hr)).mp (hx.rows r hr)
      · intro g' hg'
        exact (Gen.Ok_congr hy (G.gens g' hg')).mp (hx.gens g' hg')
    refine ⟨y, hy, ?_⟩
    have h1 := (feasible_withLits m vs hv y).mpr ⟨hf, hl⟩
    refine ⟨h1.sat, h1.cols, h1.rows, ?_⟩
    intro g' hg'
    simp only [addGen, List.mem_append, List.mem_singleton] at hg'
    rcases hg' with hg' | rfl
    · exact h1.gens g' hg'
    · refine (h y hl).mpr ?_
      rwa [← values_congr G hy]
  obj := fun x => objective_withLits m vs x

end MipInst
end MZ
