import Verif.LexOrd.Chain
import Mathlib.Data.Finset.Card
import Mathlib.Data.Fintype.Card
import Mathlib.Data.Fintype.Prod
import Mathlib.Tactic.Ring
import Mathlib.Logic.Function.Iterate

/-! # Lemmas on the symmetry breaking constraints -/

namespace MZ.LexOrd
open MZ.Globals MZ.LexOrd.Spec

theorem perm_surj {n : Int} {p : Int → Int} (h : IsPerm n p) : ∀ i, 1 ≤ i → i ≤ n → ∃ k, 1 ≤ k ∧ k ≤ n ∧ p k = i := by
  intro i h1 h2
  have himg : (Finset.Icc 1 n).image p = Finset.Icc 1 n := by
    apply Finset.eq_of_subset_of_card_le
    · intro x hx
      rw [Finset.mem_image] at hx
      obtain ⟨k, hk, rfl⟩ := hx
      rw [Finset.mem_Icc] at hk ⊢
      exact h.1 k hk.1 hk.2
    · rw [Finset.card_image_of_injOn]
      intro a ha b hb hab
      rw [Finset.coe_Icc, Set.mem_Icc] at ha hb
      exact h.2 a b ha.1 ha.2 hb.1 hb.2 hab
  have : i ∈ (Finset.Icc 1 n).image p := by rw [himg, Finset.mem_Icc]; exact ⟨h1, h2⟩
  rw [Finset.mem_image] at this
  obtain ⟨k, hk, rfl⟩ := this
  rw [Finset.mem_Icc] at hk
  exact ⟨k, hk.1, hk.2, rfl⟩

theorem elems_congr {α : Type} {a b : Arr α} (hlo : a.lo = b.lo) (hhi : a.hi = b.hi)
    (h : ∀ i, a.lo ≤ i → i ≤ a.hi → a i = b i) : elems a = elems b := by
  apply List.ext_getElem
  · rw [length_elems, length_elems, hlo, hhi]
  · intro k h1 h2
    rw [getElem_elems, getElem_elems, ← hlo]
    rw [length_elems] at h1
    exact h _ (by omega) (by omega)

section
variable {α : Type} [LinearOrder α]

theorem lexLessEq_congr {x y y' : Arr α} (h : elems y = elems y') : LexLessEq x y ↔ LexLessEq x y' := by
  unfold LexLessEq LexLess; rw [h]

theorem len_compr {α : Type} (a : Arr α) : (a.compr id).len = a.len := by
  rw [len_eq_length, elems_compr, ← len_eq_length]

theorem pairwise_iff (xs : Arr α) {p1 p2 : Int → Int} (h1 : IsPerm xs.len p1) (q : Int → Int)
    (hq : ∀ k, 1 ≤ k → k ≤ xs.len → p2 k = q (p1 k)) :
    varPermSymPairwise (xs.compr id) p1 p2 ↔ LexLessEq xs (rearrange xs q) := by
  unfold varPermSymPairwise
  simp only [lexLessEq_iff, true_iff, len_compr]
  have hel : ∀ inv : Int → Int, (∀ i, 1 ≤ i → i ≤ xs.len → 1 ≤ inv i ∧ inv i ≤ xs.len ∧ p1 (inv i) = i) →
      elems (⟨1, xs.len, fun i => (xs.compr id) (p2 (inv i))⟩ : Arr α) = elems (rearrange xs q) := by
    intro inv hinv
    refine elems_congr ?_ ?_ ?_
    · rfl
    · rfl
    intro i hi1 hi2
    obtain ⟨g1, g2, g3⟩ := hinv i hi1 hi2
    simp only [rearrange, Arr.compr, id]
    rw [hq _ g1 g2, g3]
  have hx : LexLessEq (xs.compr id) = LexLessEq xs := by
    unfold LexLessEq LexLess; rw [elems_compr]
  constructor
  · rintro ⟨inv, hinv, h⟩
    rw [hx, lexLessEq_congr (hel inv hinv)] at h
    exact h
  · intro h
    have : ∀ i, ∃ k, 1 ≤ i → i ≤ xs.len → 1 ≤ k ∧ k ≤ xs.len ∧ p1 k = i := by
      intro i
      by_cases hi : 1 ≤ i ∧ i ≤ xs.len
      · obtain ⟨k, h⟩ := perm_surj h1 i hi.1 hi.2
        exact ⟨k, fun _ _ => h⟩
      · exact ⟨0, fun h1 h2 => absurd ⟨h1, h2⟩ hi⟩
    choose inv hinv using this
    refine ⟨inv, hinv, ?_⟩
    rw [hx, lexLessEq_congr (hel inv hinv)]
    exact h

theorem rearrange_id (xs : Arr α) (q : Int → Int) (hq : ∀ k, 1 ≤ k → k ≤ xs.len → q k = k) :
    LexLessEq xs (rearrange xs q) := by
  right
  rw [← elems_compr]
  refine elems_congr ?_ ?_ ?_
  · rfl
  · rfl
  intro i h1 h2
  simp only [rearrange, Arr.compr, id]
  rw [hq i h1 h2]

theorem varPermSym_iff (xs : Arr α) (ps : Arr (Int → Int)) (hg : IsGroup xs.len ps) :
    varPermSym xs ps ↔ LexLeast xs ps := by
  obtain ⟨hp, hc, hd⟩ := hg
  constructor
  · intro h r hr
    obtain ⟨j, hj, hjr⟩ := hc r hr r hr
    by_cases e : r = j
    · subst e
      apply rearrange_id
      intro k h1 h2
      obtain ⟨k', g1, g2, rfl⟩ := perm_surj (hp r hr) k h1 h2
      exact (hjr k' g1 g2).symm
    · exact (pairwise_iff xs (hp r hr) (ps r) hjr).1 (h r hr j hj e)
  · intro h i hi j hj _
    obtain ⟨r, hr, hrr⟩ := hd i hi j hj
    exact (pairwise_iff xs (hp i hi) (ps r) hrr).2 (h r hr)

end

/-! ## The square -/

/-- The eight symmetries of the square by three bits: swap the coordinates, mirror the first, mirror the second. -/
def sym8 (n : Int) (b : Bool × Bool × Bool) (c : Int × Int) : Int × Int :=
  let d := if b.1 then (c.2, c.1) else c
  (if b.2.1 then n + 1 - d.1 else d.1, if b.2.2 then n + 1 - d.2 else d.2)

/-- Composition on the bits. -/
def comp8 (b a : Bool × Bool × Bool) : Bool × Bool × Bool :=
  (xor b.1 a.1, xor b.2.1 (if b.1 then a.2.2 else a.2.1), xor b.2.2 (if b.1 then a.2.1 else a.2.2))

theorem sym8_comp (n : Int) (b a : Bool × Bool × Bool) (c : Int × Int) :
    sym8 n b (sym8 n a c) = sym8 n (comp8 b a) c := by
  obtain ⟨b1, b2, b3⟩ := b
  obtain ⟨a1, a2, a3⟩ := a
  obtain ⟨i, j⟩ := c
  cases b1 <;> cases b2 <;> cases b3 <;> cases a1 <;> cases a2 <;> cases a3 <;> simp [sym8, comp8]

/-- The bits of row `k` of the library's matrix. -/
def bits (k : Int) : Bool × Bool × Bool :=
  if k = 1 then (false, false, false)
  else if k = 2 then (true, true, false)
  else if k = 3 then (false, true, true)
  else if k = 4 then (true, false, true)
  else if k = 5 then (false, true, false)
  else if k = 6 then (false, false, true)
  else if k = 7 then (true, true, true)
  else (true, false, false)

/-- The row of given bits. -/
def rowOf (b : Bool × Bool × Bool) : Int :=
  match b with
  | (false, false, false) => 1
  | (true, true, false) => 2
  | (false, true, true) => 3
  | (true, false, true) => 4
  | (false, true, false) => 5
  | (false, false, true) => 6
  | (true, true, true) => 7
  | (true, false, false) => 8

theorem bits_rowOf : ∀ b, bits (rowOf b) = b := by decide

theorem rowOf_mem : ∀ b, 1 ≤ rowOf b ∧ rowOf b ≤ 8 := by decide

theorem quot8 : ∀ i j : Bool × Bool × Bool, ∃ r, comp8 r i = j := by decide

/-- Position of a coordinate in the list of rows. -/
def posOf (n : Int) (c : Int × Int) : Int := (c.1 - 1) * n + c.2

theorem sqrEntry_eq (n k i j : Int) : sqrEntry n k i j = posOf n (sym8 n (bits k) (i, j)) := by
  unfold sqrEntry posOf bits
  split_ifs <;> simp only [sym8, Bool.false_eq_true, if_true, if_false] <;> ring

/-- Coordinates inside the square. -/
def Inside (n : Int) (c : Int × Int) : Prop := 1 ≤ c.1 ∧ c.1 ≤ n ∧ 1 ≤ c.2 ∧ c.2 ≤ n

theorem sym8_inside {n : Int} (b : Bool × Bool × Bool) {c : Int × Int} (h : Inside n c) : Inside n (sym8 n b c) := by
  obtain ⟨b1, b2, b3⟩ := b
  obtain ⟨i, j⟩ := c
  unfold Inside at *
  cases b1 <;> cases b2 <;> cases b3 <;> simp [sym8] at * <;> omega

/-- The coordinates of a position. -/
def coord (n q : Int) : Int × Int := ((q - 1) / n + 1, (q - 1) % n + 1)

theorem coord_inside {n q : Int} (h1 : 1 ≤ q) (h2 : q ≤ n * n) (hn : 0 < n) : Inside n (coord n q) := by
  unfold Inside coord
  have ha : 0 ≤ (q - 1) / n := Int.ediv_nonneg (by omega) (by omega)
  have hb : (q - 1) / n < n := Int.ediv_lt_of_lt_mul hn (by omega)
  have hc := Int.emod_nonneg (q - 1) (show n ≠ 0 by omega)
  have hd := Int.emod_lt_of_pos (q - 1) hn
  dsimp only
  omega

theorem coord_pos {n : Int} {c : Int × Int} (h : Inside n c) : coord n (posOf n c) = c := by
  obtain ⟨i, j⟩ := c
  unfold Inside at h
  dsimp only at h
  have hn : 0 < n := by omega
  have e : (i - 1) * n + j - 1 = (j - 1) + (i - 1) * n := by ring
  unfold coord posOf
  dsimp only
  rw [e, Int.add_mul_ediv_right _ _ (by omega), Int.add_mul_emod_self_right, Int.ediv_eq_zero_of_lt (by omega) (by omega),
    Int.emod_eq_of_lt (by omega) (by omega)]
  ext <;> simp

theorem pos_range {n : Int} {c : Int × Int} (h : Inside n c) : 1 ≤ posOf n c ∧ posOf n c ≤ n * n := by
  obtain ⟨i, j⟩ := c
  unfold Inside at h
  unfold posOf
  dsimp only at *
  have h1 : 0 ≤ (i - 1) * n := Int.mul_nonneg (by omega) (by omega)
  have h2 : (i - 1) * n ≤ (n - 1) * n := Int.mul_le_mul_of_nonneg_right (by omega) (by omega)
  have e : (n - 1) * n = n * n - n := by ring
  omega

theorem pos_coord {n q : Int} (hn : n ≠ 0) : posOf n (coord n q) = q := by
  unfold posOf coord
  dsimp only
  have := Int.mul_ediv_add_emod (q - 1) n
  rw [show ((q - 1) / n + 1 - 1) * n = n * ((q - 1) / n) by ring]
  omega

theorem range_flatMap {α : Type} (g : Nat → Nat → α) (m n : Nat) :
    (List.range m).flatMap (fun i => (List.range n).map (g i)) =
      (List.range (m * n)).map (fun q => g (q / n) (q % n)) := by
  induction m with
  | zero => simp
  | succ m ih =>
    rw [List.range_succ, List.flatMap_append, ih, Nat.succ_mul, List.range_add, List.map_append]
    congr 1
    simp only [List.flatMap_cons, List.flatMap_nil, List.append_nil, List.map_map]
    apply List.map_congr_left
    intro j hj
    rw [List.mem_range] at hj
    simp only [Function.comp]
    have e : m * n + j = j + n * m := by ring
    rw [e, Nat.add_mul_div_left _ _ (by omega), Nat.add_mul_mod_self_left, Nat.div_eq_of_lt hj, Nat.mod_eq_of_lt hj,
      Nat.zero_add]

theorem elems_square {α : Type} (n : Int) (hn : 0 ≤ n) (f : Int × Int → α) :
    elems (⟨1, n * n, fun q => f (coord n q)⟩ : Arr α) = readRows n f := by
  unfold readRows
  rw [range_flatMap (fun i j => f ((i : Int) + 1, (j : Int) + 1))]
  obtain ⟨m, rfl⟩ := Int.eq_ofNat_of_zero_le hn
  unfold elems
  have e : ((m : Int) * m - 1 + 1).toNat = m * m := by
    rw [show (m : Int) * m - 1 + 1 = ((m * m : Nat) : Int) by push_cast; ring]; rfl
  simp only [e, Int.toNat_natCast]
  apply List.map_congr_left
  intro q _
  unfold coord
  rw [show (1 : Int) + q - 1 = (q : Int) by omega]
  push_cast
  rfl

theorem symmetry_iff (n : Int) (s : Int × Int → Int × Int) : IsSymmetry n s ↔ ∃ b, s = sym8 n b := by
  have hturn : turn n = sym8 n (true, false, true) := by
    funext c; simp [turn, sym8]
  have hflip : mirror n = sym8 n (false, false, true) := by
    funext c; simp [mirror, sym8]
  have hid : (id : Int × Int → Int × Int) = sym8 n (false, false, false) := by
    funext c; simp [sym8]
  have hcomp : ∀ a b, sym8 n a ∘ sym8 n b = sym8 n (comp8 a b) := fun a b => funext fun c => sym8_comp n a b c
  have hiter : ∀ t, ∃ b, (turn n)^[t] = sym8 n b := by
    intro t
    induction t with
    | zero => exact ⟨_, hid⟩
    | succ t ih =>
      obtain ⟨b, hb⟩ := ih
      exact ⟨_, by rw [Function.iterate_succ', hb, hturn, hcomp]⟩
  constructor
  · rintro ⟨t, h | h⟩
    · obtain ⟨b, hb⟩ := hiter t
      exact ⟨b, h.trans hb⟩
    · obtain ⟨b, hb⟩ := hiter t
      exact ⟨_, by rw [h, hb, hflip, hcomp]⟩
  · rintro ⟨b, rfl⟩
    have h1 : (turn n)^[1] = sym8 n (true, false, true) := hturn
    have h2 : (turn n)^[2] = sym8 n (false, true, true) := by
      rw [Function.iterate_succ', h1, hturn, hcomp]; rfl
    have h3 : (turn n)^[3] = sym8 n (true, true, false) := by
      rw [Function.iterate_succ', h2, hturn, hcomp]; rfl
    obtain ⟨b1, b2, b3⟩ := b
    cases b1 <;> cases b2 <;> cases b3
    · exact ⟨0, Or.inl hid.symm⟩
    · exact ⟨0, Or.inr hflip.symm⟩
    · exact ⟨2, Or.inr (by rw [h2, hflip, hcomp]; rfl)⟩
    · exact ⟨2, Or.inl h2.symm⟩
    · exact ⟨3, Or.inr (by rw [h3, hflip, hcomp]; rfl)⟩
    · exact ⟨1, Or.inl h1.symm⟩
    · exact ⟨3, Or.inl h3.symm⟩
    · exact ⟨1, Or.inr (by rw [h1, hflip, hcomp]; rfl)⟩

section
variable {α : Type} [LinearOrder α]

theorem varSqrSym_iff (n : Int) (hn : 0 ≤ n) (f : Int × Int → α) : varSqrSym n f ↔ SquareLeast n f := by
  rcases lt_or_eq_of_le hn with hpos | rfl
  · have hlen : (⟨1, n * n, fun q => f (coord n q)⟩ : Arr α).len = n * n := by
      rw [len_eq_length, length_elems]
      have := Int.mul_nonneg hn hn
      simp only
      omega
    have hrow : ∀ k q, 1 ≤ q → q ≤ n * n → sqrEntry n k (coord n q).1 (coord n q).2 =
        posOf n (sym8 n (bits k) (coord n q)) := fun k q _ _ => sqrEntry_eq _ _ _ _
    have hcomp : ∀ r i q, 1 ≤ q → q ≤ n * n →
        sqrEntry n r (coord n (posOf n (sym8 n (bits i) (coord n q)))).1 (coord n (posOf n (sym8 n (bits i) (coord n q)))).2 =
        posOf n (sym8 n (comp8 (bits r) (bits i)) (coord n q)) := by
      intro r i q h1 h2
      have hin := sym8_inside (bits i) (coord_inside h1 h2 hpos)
      rw [coord_pos hin, sqrEntry_eq]
      rw [show (((sym8 n (bits i) (coord n q)).1, (sym8 n (bits i) (coord n q)).2) : Int × Int) = sym8 n (bits i) (coord n q) from rfl,
        sym8_comp]
    have hg : IsGroup (n * n) (⟨1, 8, fun k q => sqrEntry n k (coord n q).1 (coord n q).2⟩ : Arr (Int → Int)) := by
      refine ⟨?_, ?_, ?_⟩
      · intro r _
        constructor
        · intro q h1 h2
          dsimp only
          rw [hrow r q h1 h2]
          exact pos_range (sym8_inside _ (coord_inside h1 h2 hpos))
        · intro q q' h1 h2 h3 h4 heq
          dsimp only at heq
          rw [hrow r q h1 h2, hrow r q' h3 h4] at heq
          have h5 := congrArg (coord n) heq
          rw [coord_pos (sym8_inside _ (coord_inside h1 h2 hpos)), coord_pos (sym8_inside _ (coord_inside h3 h4 hpos))] at h5
          obtain ⟨i, hi⟩ := (show ∃ i, comp8 i (bits r) = (false, false, false) from by
            generalize bits r = b; revert b; decide)
          have h6 := congrArg (sym8 n i) h5
          rw [sym8_comp, sym8_comp, hi] at h6
          have h7 : coord n q = coord n q' := by simpa [sym8] using h6
          rw [← pos_coord (q := q) (show n ≠ 0 by omega), h7, pos_coord (by omega)]
      · intro r _ i _
        refine ⟨rowOf (comp8 (bits r) (bits i)), (Arr.mem_idx _ _).2 (rowOf_mem _), ?_⟩
        intro q h1 h2
        dsimp only
        rw [hrow i q h1 h2, hcomp r i q h1 h2, hrow _ q h1 h2, bits_rowOf]
      · intro i _ j _
        obtain ⟨r, hr⟩ := quot8 (bits i) (bits j)
        refine ⟨rowOf r, (Arr.mem_idx _ _).2 (rowOf_mem _), ?_⟩
        intro q h1 h2
        dsimp only
        rw [hrow i q h1 h2, hcomp _ i q h1 h2, hrow _ q h1 h2, bits_rowOf, hr]
    have hmain := varPermSym_iff (⟨1, n * n, fun q => f (coord n q)⟩ : Arr α) _ (by rw [hlen]; exact hg)
    have hre : ∀ k, elems (rearrange (⟨1, n * n, fun q => f (coord n q)⟩ : Arr α)
        (fun q => sqrEntry n k (coord n q).1 (coord n q).2)) = readRows n (f ∘ sym8 n (bits k)) := by
      intro k
      rw [← elems_square n hn]
      refine elems_congr ?_ ?_ ?_
      · rfl
      · simp only [rearrange]; exact hlen
      · intro q h1 h2
        have h2' : q ≤ n * n := by simp only [rearrange] at h2; rw [hlen] at h2; exact h2
        have h1' : 1 ≤ q := h1
        simp only [rearrange, Function.comp]
        rw [hrow k q h1' h2', show 1 + posOf n (sym8 n (bits k) (coord n q)) - 1 = posOf n (sym8 n (bits k) (coord n q)) by omega,
          coord_pos (sym8_inside _ (coord_inside h1' h2' hpos))]
    unfold varSqrSym
    refine hmain.trans ?_
    unfold LexLeast LexLessEq LexLess SquareLeast
    simp only [elems_square n hn, hre]
    constructor
    · intro h s hs
      obtain ⟨b, rfl⟩ := (symmetry_iff n s).1 hs
      have := h (rowOf b) ((Arr.mem_idx _ _).2 (rowOf_mem b))
      rwa [bits_rowOf] at this
    · intro h r _
      exact h _ ((symmetry_iff n _).2 ⟨bits r, rfl⟩)
  · refine iff_of_true ?_ ?_
    · intro i _ j _ _
      refine ⟨id, ?_, ?_⟩
      · intro q h1 h2
        rw [len_compr, len_eq_length, length_elems] at h2
        simp at h2
        omega
      · rw [lexLessEq_iff]
        refine iff_of_true trivial (Or.inr ?_)
        rw [elems_nil, elems_nil]
        · rw [len_eq_length, length_elems]
          simp [len_compr, len_eq_length, length_elems]
          simp [Arr.compr, len_eq_length, length_elems]
        · simp [len_compr, len_eq_length, length_elems]
          simp [Arr.compr, len_eq_length, length_elems]
    · intro s _
      right
      simp [readRows]

end

end MZ.LexOrd
