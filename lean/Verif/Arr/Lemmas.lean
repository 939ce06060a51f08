import Verif.Arr.Spec
import Mathlib.Tactic.Ring
import Mathlib.Tactic.Linarith
import Mathlib.Algebra.Order.Ring.Int
/-! # Ranks, bounds and the index computation of slices -/
namespace MZ
namespace Arr

variable {α β : Type}

theorem count_nonneg : ∀ D : List (Int × Int), 0 ≤ count D
  | [] => by simp [count]
  | (lo, hi) :: r => Int.mul_nonneg (le_max_left _ _) (count_nonneg r)

theorem prodW_eq : ∀ {D : List (Int × Int)}, (∀ p ∈ D, p.1 ≤ p.2 + 1) → prodW D = count D
  | [], _ => rfl
  | (lo, hi) :: r, h => by
    have h1 := h (lo, hi) (by simp)
    have h2 := prodW_eq (D := r) (fun p hp => h p (by simp [hp]))
    simp only [prodW, count, h2]
    rw [max_eq_right (by simp only at h1; omega)]

theorem count_append : ∀ (D D' : List (Int × Int)), count (D ++ D') = count D * count D'
  | [], D' => by simp [count]
  | (lo, hi) :: r, D' => by simp [count, count_append r D', Int.mul_assoc]

theorem rank_bounds : ∀ {D : List (Int × Int)} {t : List Int}, InBox D t → 0 ≤ rank D t ∧ rank D t < count D
  | [], [], _ => by simp [rank, count]
  | (lo, hi) :: r, x :: xs, h => by
    obtain ⟨h1, h2, h3⟩ := h
    obtain ⟨i1, i2⟩ := rank_bounds h3
    have hw : Max.max 0 (hi - lo + 1) = hi - lo + 1 := max_eq_right (by omega)
    simp only [rank, count, hw]
    have hc : 0 < count r := by omega
    constructor
    · have : 0 ≤ (x - lo) * count r := Int.mul_nonneg (by omega) (by omega)
      omega
    · have : (x - lo) * count r ≤ (hi - lo) * count r := Int.mul_le_mul_of_nonneg_right (by omega) (by omega)
      have e : (hi - lo + 1) * count r = (hi - lo) * count r + count r := by ring
      omega
  | [], _ :: _, h => h.elim
  | _ :: _, [], h => h.elim

theorem inBox_length : ∀ {D : List (Int × Int)} {t : List Int}, InBox D t → t.length = D.length
  | [], [], _ => rfl
  | (_, _) :: _, _ :: _, h => by simp [inBox_length h.2.2]
  | [], _ :: _, h => h.elim
  | _ :: _, [], h => h.elim

/-- Every position is the rank of exactly one index tuple. -/
theorem rank_surj : ∀ (D : List (Int × Int)) (k : Int), 0 ≤ k → k < count D → ∃ t, InBox D t ∧ rank D t = k
  | [], k, h0, h1 => ⟨[], trivial, by simp [count] at h1; simp [rank]; omega⟩
  | (lo, hi) :: r, k, h0, h1 => by
    simp only [count] at h1
    have hcn := count_nonneg r
    have hc : 0 < count r := by
      rcases hcn.lt_or_eq with h | h
      · exact h
      · rw [← h] at h1; simp at h1; omega
    have hw : 0 < hi - lo + 1 := by
      rcases le_or_gt (hi - lo + 1) 0 with h | h
      · rw [max_eq_left h] at h1; simp at h1; omega
      · exact h
    rw [max_eq_right hw.le] at h1
    obtain ⟨t, ht, hr⟩ := rank_surj r (k % count r) (Int.emod_nonneg _ hc.ne') (Int.emod_lt_of_pos _ hc)
    refine ⟨(lo + k / count r) :: t, ⟨?_, ?_, ht⟩, ?_⟩
    · have := Int.ediv_nonneg h0 hcn; omega
    · have := Int.ediv_lt_of_lt_mul hc h1; omega
    · simp only [rank, hr]
      rw [show lo + k / count r - lo = k / count r by ring, Int.mul_comm]
      exact Int.mul_ediv_add_emod k (count r)

theorem rank_inj : ∀ {D : List (Int × Int)} {t u : List Int}, InBox D t → InBox D u → rank D t = rank D u → t = u
  | [], [], [], _, _, _ => rfl
  | (lo, hi) :: r, x :: xs, y :: ys, h, h', e => by
    obtain ⟨_, _, h3⟩ := h
    obtain ⟨_, _, h3'⟩ := h'
    obtain ⟨a1, a2⟩ := rank_bounds h3
    obtain ⟨b1, b2⟩ := rank_bounds h3'
    simp only [rank] at e
    have hxy : x = y := by
      rcases lt_trichotomy x y with h | h | h
      · exfalso
        have : (x - lo + 1) * count r ≤ (y - lo) * count r := Int.mul_le_mul_of_nonneg_right (by omega) (count_nonneg r)
        have e2 : (x - lo + 1) * count r = (x - lo) * count r + count r := by ring
        omega
      · exact h
      · exfalso
        have : (y - lo + 1) * count r ≤ (x - lo) * count r := Int.mul_le_mul_of_nonneg_right (by omega) (count_nonneg r)
        have e2 : (y - lo + 1) * count r = (y - lo) * count r + count r := by ring
        omega
    subst hxy
    rw [rank_inj h3 h3' (by omega)]
  | [], _ :: _, _, h, _, _ => h.elim
  | [], [], _ :: _, _, h, _ => h.elim
  | _ :: _, [], _, h, _, _ => h.elim
  | _ :: _, _ :: _, [], _, h, _ => h.elim

theorem inBox_snoc : ∀ {D : List (Int × Int)} {p : Int × Int} {t : List Int}, InBox (D ++ [p]) t →
    ∃ t' x, t = t' ++ [x] ∧ InBox D t' ∧ p.1 ≤ x ∧ x ≤ p.2
  | [], (lo, hi), [x], h => ⟨[], x, rfl, trivial, h.1, h.2.1⟩
  | [], (_, _), [], h => h.elim
  | [], (_, _), _ :: _ :: _, h => h.2.2.elim
  | (lo, hi) :: r, p, x :: xs, h => by
    obtain ⟨t', y, e, h1, h2, h3⟩ := inBox_snoc h.2.2
    exact ⟨x :: t', y, by simp [e], ⟨h.1, h.2.1, h1⟩, h2, h3⟩
  | (_, _) :: _, _, [], h => h.elim

theorem rank_snoc : ∀ {D : List (Int × Int)} {t : List Int} (p : Int × Int) (x : Int), t.length = D.length →
    rank (D ++ [p]) (t ++ [x]) = rank D t * Max.max 0 (p.2 - p.1 + 1) + (x - p.1)
  | [], [], (lo, hi), x, _ => by simp [rank, count]
  | (lo, hi) :: r, y :: ys, p, x, h => by
    simp only [List.cons_append, rank, rank_snoc p x (by simpa using h), count_append]
    obtain ⟨a, b⟩ := p
    simp only [count, mul_one]
    ring
  | [], _ :: _, _, _, h => by simp at h
  | _ :: _, [], _, _, h => by simp at h

theorem inside_length : ∀ {S D : List (Int × Int)}, Inside S D → S.length = D.length
  | [], [], _ => rfl
  | (_, _) :: _, (_, _) :: _, h => by simp [inside_length h.2]
  | [], _ :: _, h => h.elim
  | _ :: _, [], h => h.elim

theorem inside_box : ∀ {S D : List (Int × Int)} {t : List Int}, Inside S D → InBox S t → InBox D t
  | [], [], [], _, _ => trivial
  | (s0, s1) :: S, (a0, a1) :: D, x :: xs, h, hb => by
    obtain ⟨b1, b2, b3⟩ := hb
    refine ⟨?_, ?_, inside_box h.2 b3⟩ <;> rcases h.1 with h | h <;> omega
  | [], _ :: _, _, h, _ => h.elim
  | _ :: _, [], _, h, _ => h.elim
  | [], [], _ :: _, _, h => h.elim
  | _ :: _, _ :: _, [], _, h => h.elim

theorem origLoop_eq (L : List ((Int × Int) × (Int × Int))) : ∀ (t : List Int) (m : Int), InBox (L.map Prod.fst) t →
    InBox (L.map Prod.snd) t → origLoop L.reverse (rank (L.map Prod.fst) t) m = .ok (m * rank (L.map Prod.snd) t) := by
  induction L using List.reverseRecOn with
  | nil => intro t m h _; cases t with
    | nil => simp [origLoop, rank]
    | cons _ _ => exact h.elim
  | append_singleton L p ih =>
    intro t m hs hd
    obtain ⟨⟨s0, s1⟩, ⟨a0, a1⟩⟩ := p
    simp only [List.map_append, List.map_cons, List.map_nil] at hs hd ⊢
    obtain ⟨t', x, rfl, h1, h2, h3⟩ := inBox_snoc hs
    obtain ⟨t2, x2, e, g1, g2, g3⟩ := inBox_snoc hd
    have := List.append_inj' e rfl
    obtain ⟨rfl, e2⟩ := this
    simp only [List.cons.injEq, and_true] at e2
    subst e2
    simp only at h2 h3 g2 g3
    rw [rank_snoc _ _ (inBox_length h1), rank_snoc _ _ (inBox_length g1)]
    simp only [List.reverse_append, List.reverse_cons, List.reverse_nil, List.nil_append, List.singleton_append, origLoop]
    rw [if_neg (by omega)]
    have hw : Max.max 0 (s1 - s0 + 1) = s1 - s0 + 1 := max_eq_right (by omega)
    have ha : Max.max 0 (a1 - a0 + 1) = a1 - a0 + 1 := max_eq_right (by omega)
    rw [hw, ha]
    have hdiv : (rank (L.map Prod.fst) t' * (s1 - s0 + 1) + (x - s0)) / (s1 - s0 + 1) = rank (L.map Prod.fst) t' := by
      rw [Int.mul_comm, Int.mul_add_ediv_left _ _ (by omega), Int.ediv_eq_zero_of_lt (by omega) (by omega)]; omega
    have hmod : (rank (L.map Prod.fst) t' * (s1 - s0 + 1) + (x - s0)) % (s1 - s0 + 1) = x - s0 := by
      rw [Int.mul_comm, Int.mul_add_emod_self_left]; exact Int.emod_eq_of_lt (by omega) (by omega)
    rw [hdiv, hmod, ih t' _ h1 g1]
    simp only [Res.ok_bind, Res.ok.injEq]
    ring

theorem flat_length : ∀ D : List (Int × Int), (flat D).length = 2 * D.length
  | [] => rfl
  | (_, _) :: r => by simp [flat, flat_length r]; omega

theorem flat_append : ∀ D D' : List (Int × Int), flat (D ++ D') = flat D ++ flat D'
  | [], _ => rfl
  | (_, _) :: r, D' => by simp [flat, flat_append r D']

theorem flat_isEmpty {D : List (Int × Int)} (h : D ≠ []) : (flat D).isEmpty = false := by
  cases D with
  | nil => exact absurd rfl h
  | cons p _ => obtain ⟨_, _⟩ := p; rfl

theorem flat_get_lo : ∀ {D : List (Int × Int)} {k : Nat} {p : Int × Int}, D[k]? = some p → (flat D)[2 * k]? = some p.1
  | (a, b) :: r, 0, p, h => by simp at h; subst h; rfl
  | (a, b) :: r, k + 1, p, h => by
    simp only [List.getElem?_cons_succ] at h
    simpa [flat, Nat.mul_add] using flat_get_lo h
  | [], _, _, h => by simp at h

theorem flat_get_hi : ∀ {D : List (Int × Int)} {k : Nat} {p : Int × Int}, D[k]? = some p → (flat D)[2 * k + 1]? = some p.2
  | (a, b) :: r, 0, p, h => by simp at h; subst h; rfl
  | (a, b) :: r, k + 1, p, h => by
    simp only [List.getElem?_cons_succ] at h
    simpa [flat, Nat.mul_add] using flat_get_hi h
  | [], _, _, h => by simp at h

theorem at?_append_left {d e : List Int} {k : Nat} {x : Int} (h : d[k]? = some x) : at? (d ++ e) k = .ok x := by
  have : k < d.length := by
    by_contra hc
    rw [List.getElem?_eq_none (by omega)] at h; cases h
  simp [at?, List.getElem?_append_left this, h]

theorem at?_some {d : List Int} {k : Nat} {x : Int} (h : d[k]? = some x) : at? d k = .ok x := by simp [at?, h]

theorem pairsFrom_flat : ∀ (D : List (Int × Int)) (pre post : List Int),
    pairsFrom (pre ++ flat D ++ post) pre.length D.length = .ok D
  | [], _, _ => rfl
  | (lo, hi) :: r, pre, post => by
    have ih := pairsFrom_flat r (pre ++ [lo, hi]) post
    simp only [List.length_append, List.length_cons, List.length_nil] at ih
    have e : pre ++ [lo, hi] ++ flat r ++ post = pre ++ flat ((lo, hi) :: r) ++ post := by simp [flat]
    rw [e] at ih
    have g0 : (pre ++ flat ((lo, hi) :: r) ++ post)[pre.length]? = some lo := by simp [flat]
    have g1 : (pre ++ flat ((lo, hi) :: r) ++ post)[pre.length + 1]? = some hi := by simp [flat]
    simp only [List.length_cons, pairsFrom, at?_some g0, at?_some g1, ih, Res.ok_bind]

theorem boundsFrom_eq {a : Lit α} {D : List (Int × Int)} (hlo : ∀ k p, D[k]? = some p → min a k = .ok p.1)
    (hhi : ∀ k p, D[k]? = some p → max a k = .ok p.2) : ∀ (n k : Nat), k + n = D.length → boundsFrom a k n = .ok (D.drop k)
  | 0, k, h => by simp [boundsFrom, List.drop_eq_nil_of_le (show D.length ≤ k by omega)]
  | n + 1, k, h => by
    have hk : k < D.length := by omega
    have g : D[k]? = some D[k] := List.getElem?_eq_getElem hk
    simp only [boundsFrom, hlo k _ g, hhi k _ g, Res.ok_bind, boundsFrom_eq hlo hhi n (k + 1) (by omega)]
    rw [List.drop_eq_getElem_cons hk]

end Arr
end MZ
