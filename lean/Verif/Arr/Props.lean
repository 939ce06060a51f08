import Verif.Arr.Lemmas
/-!
# C18, C19: compressed arrays, re-dimensioned arrays and slices read like the plain array
-/
namespace MZ
namespace Arr

variable {α β : Type}

theorem elem_some {v : List α} {k : Nat} {e : α} (h : v[k]? = some e) : elem v k = .ok e := by simp [elem, h]

theorem shape_one {n : Nat} : Shape [((1 : Int), (n : Int))] := ⟨by simp, by simp⟩

theorem count_one (n : Nat) : count [((1 : Int), (n : Int))] = n := by simp [count]

/-- A vector literal with explicit bounds shows these bounds. -/
theorem bounds_vec {v : List α} {f : Bool} {D : List (Int × Int)} (hs : D ≠ []) :
    ndims (.vec v f (flat D)) = D.length ∧ (∀ k p, D[k]? = some p → min (.vec v f (flat D)) k = .ok p.1) ∧
      (∀ k p, D[k]? = some p → max (.vec v f (flat D)) k = .ok p.2) := by
  have he := flat_isEmpty hs
  refine ⟨by simp [ndims, he, flat_length], ?_, ?_⟩
  · intro k p h; simp only [min, Lit.raw, he]; exact at?_some (flat_get_lo h)
  · intro k p h; simp only [max, he]; exact at?_some (flat_get_hi h)

theorem bounds_slice {al : Lit α} {D' S : List (Int × Int)} (hs : D' ≠ []) (hn : ndims al = S.length) :
    ndims (.slice al (flat D' ++ flat S)) = D'.length ∧
      (∀ k p, D'[k]? = some p → min (.slice al (flat D' ++ flat S)) k = .ok p.1) ∧
      (∀ k p, D'[k]? = some p → max (.slice al (flat D' ++ flat S)) k = .ok p.2) := by
  have he := flat_isEmpty hs
  have hr : (flat D' ++ flat S).isEmpty = false := by
    cases h : flat D' with
    | nil => rw [h] at he; cases he
    | cons _ _ => rfl
  refine ⟨by simp [ndims, hn, flat_length], ?_, ?_⟩
  · intro k p h; simp only [min, Lit.raw, hr]; exact at?_append_left (flat_get_lo h)
  · intro k p h; simp only [max, hr]; exact at?_append_left (flat_get_hi h)

theorem length_of {a : Lit α} {D : List (Int × Int)} (hs : Shape D) (hn : ndims a = D.length)
    (hlo : ∀ k p, D[k]? = some p → min a k = .ok p.1) (hhi : ∀ k p, D[k]? = some p → max a k = .ok p.2) :
    length a = .ok (count D) := by
  have h0 : D.length ≠ 0 := by simpa using hs.1
  simp only [length, hn, h0, if_false, boundsFrom_eq hlo hhi D.length 0 (by omega), Res.ok_bind, List.drop_zero, prodW_eq hs.2]

theorem origIdx_eq {al : Lit α} {D S D' : List (Int × Int)} {E : List α} (ha : IsArr al D E) (hi : Inside S D)
    {t : List Int} (ht : InBox S t) :
    origIdx al (flat D' ++ flat S) (rank S t).toNat = .ok (rank D t).toNat := by
  have hl := inside_length hi
  have hn : ndims al = S.length := by rw [ha.nd, hl]
  have hoff : ((flat D' ++ flat S).length - 2 * ndims al) / 2 * 2 = (flat D').length := by
    simp [flat_length, hn, Nat.mul_comm]
  have hp := pairsFrom_flat S (flat D') []
  rw [List.append_nil] at hp
  have hb := boundsFrom_eq ha.lo ha.hi D.length 0 (by omega)
  have m1 : (List.zip S D).map Prod.fst = S := List.map_fst_zip (by omega)
  have m2 : (List.zip S D).map Prod.snd = D := List.map_snd_zip (by omega)
  have hbox := inside_box hi ht
  have ho := origLoop_eq (List.zip S D) t 1 (by rw [m1]; exact ht) (by rw [m2]; exact hbox)
  rw [m1, m2, one_mul] at ho
  obtain ⟨r1, _⟩ := rank_bounds ht
  obtain ⟨r2, _⟩ := rank_bounds hbox
  rw [← hn] at hp
  rw [← ha.nd] at hb
  simp only [origIdx, hoff, hp, Res.ok_bind, hb, List.drop_zero, Int.toNat_of_nonneg r1, ho]
  rw [if_neg (by omega)]

/-- Every well-formed array literal is an array with the given index sets and elements. -/
theorem Wf.isArr {a : Lit α} {D : List (Int × Int)} {E : List α} (h : Wf a D E) : IsArr a D E := by
  induction h with
  | @plain v D hs hc =>
    obtain ⟨b1, b2, b3⟩ := bounds_vec (v := v) (f := false) hs.1
    have hl := length_of hs b1 b2 b3
    exact ⟨hs, hc, b1, b2, b3, by rw [hl, hc], rfl, fun k e he => elem_some he⟩
  | @plain1 v =>
    have b2 : ∀ k p, [((1 : Int), (v.length : Int))][k]? = some p → min (.vec v false []) k = .ok p.1 := by
      intro k p h
      cases k with
      | zero => simp at h; subst h; rfl
      | succ k => simp at h
    have b3 : ∀ k p, [((1 : Int), (v.length : Int))][k]? = some p → max (.vec v false []) k = .ok p.2 := by
      intro k p h
      cases k with
      | zero => simp at h; subst h; rfl
      | succ k => simp at h
    have hl := length_of (a := .vec v false []) shape_one rfl b2 b3
    exact ⟨shape_one, count_one _, rfl, b2, b3, by rw [hl, count_one], rfl, fun k e he => elem_some he⟩
  | @comp e n r D hs hn hc =>
    obtain ⟨b1, b2, b3⟩ := bounds_vec (v := e :: r) (f := true) hs.1
    have hl := length_of hs b1 b2 b3
    have hcE : count D = (List.replicate n e ++ r).length := by simp [hc]
    refine ⟨hs, hcE, b1, b2, b3, by rw [hl, hcE], by rw [← hcE]; exact hl, ?_⟩
    intro k x hx
    simp only [get, hl, Res.ok_bind, hc, List.length_cons]
    by_cases hk : (k : Int) ≤ (n : Int) + (r.length : Int) - ((r.length + 1 : Nat) : Int)
    · rw [if_pos hk]
      have hkn : k < n := by push_cast at hk; omega
      rw [List.getElem?_append_left (by simpa using hkn), List.getElem?_replicate, if_pos hkn] at hx
      exact elem_some (by simpa using hx)
    · rw [if_neg hk, if_neg (by push_cast; omega)]
      have hkn : n ≤ k := by push_cast at hk; omega
      have e1 : k - ((n : Int) + (r.length : Int) - ((r.length + 1 : Nat) : Int)).toNat = (k - n) + 1 := by
        push_cast; omega
      rw [e1]
      rw [List.getElem?_append_right (by simpa using hkn)] at hx
      exact elem_some (by simpa using hx)
  | @slice al D S D' E E' hw hi hs hc hp ih =>
    have hl := inside_length hi
    obtain ⟨b1, b2, b3⟩ := bounds_slice (al := al) (S := S) hs.1 (by rw [ih.nd, hl])
    have hlen := length_of hs b1 b2 b3
    have hcE : count D' = E'.length := by rw [hc, ← hp.1]
    refine ⟨hs, hcE, b1, b2, b3, by rw [hlen, hcE], by rw [← hcE]; exact hlen, ?_⟩
    intro k x hx
    have hk : k < E'.length := by
      by_contra hcn
      rw [List.getElem?_eq_none (by omega)] at hx; cases hx
    obtain ⟨t, ht, hr⟩ := rank_surj S k (by omega) (by rw [← hp.1]; omega)
    have hg := hp.2 t ht
    have ho := origIdx_eq (D' := D') ih hi ht
    rw [hr] at hg ho
    simp only [Int.toNat_natCast] at hg ho
    rw [hx] at hg
    simp only [get, ho, Res.ok_bind]
    exact ih.elem _ _ hg.symm

theorem takeDrop {eqv : α → α → Bool} {val : α → β} (hv : ∀ x y, eqv x y = true → val x = val y) (e : α) (r : List α) :
    (List.replicate (r.takeWhile (fun x => eqv x e)).length e ++ r.dropWhile (fun x => eqv x e)).map val = r.map val := by
  induction r with
  | nil => rfl
  | cons a r ih =>
    by_cases h : eqv a e = true
    · simp only [List.takeWhile_cons, h, if_true, List.length_cons, List.replicate_succ, List.dropWhile_cons, List.cons_append,
        List.map_cons, ih, hv a e h]
    · simp [List.takeWhile_cons, h, List.dropWhile_cons]

theorem wf_plain_or {v : List α} {D : List (Int × Int)} (hs : Shape D) (hc : count D = v.length) :
    Wf (.vec v false (if (flat D).length ≠ 2 ∨ (flat D)[0]? ≠ some 1 then flat D else [])) D v := by
  by_cases h : (flat D).length ≠ 2 ∨ (flat D)[0]? ≠ some 1
  · rw [if_pos h]; exact .plain hs hc
  · rw [if_neg h]
    match D, hs, hc, h with
    | [(lo, hi)], hs, hc, h =>
      have h1 : lo = 1 := by simpa [flat] using h
      subst h1
      have h2 := hs.2 (1, hi) (by simp)
      simp only at h2
      have h3 : hi = v.length := by
        simp only [count, mul_one] at hc
        rw [max_eq_right (by omega)] at hc
        omega
      subst h3
      exact .plain1
    | [], hs, _, _ => exact absurd rfl hs.1
    | (_, _) :: (_, _) :: _, _, _, h => simp [flat] at h

theorem compress_wf {eqv : α → α → Bool} {val : α → β} (hv : ∀ x y, eqv x y = true → val x = val y) {v : List α}
    {D : List (Int × Int)} (hs : Shape D) (hc : count D = v.length) :
    ∃ E, Wf (compress eqv v (flat D)) D E ∧ E.map val = v.map val := by
  have hplain : ∃ E, Wf (.vec v false (if (flat D).length ≠ 2 ∨ (flat D)[0]? ≠ some 1 then flat D else [])) D E ∧
      E.map val = v.map val := ⟨v, wf_plain_or hs hc, rfl⟩
  match v, hc, hplain with
  | [], _, hp => exact hp
  | [_], _, hp => exact hp
  | [_, _], _, hp => exact hp
  | [_, _, _], _, hp => exact hp
  | v0 :: v1 :: v2 :: v3 :: r, hc, hp =>
    simp only [compress]
    by_cases h : (eqv v0 v1 && eqv v1 v2 && eqv v2 v3) = true
    · rw [if_pos h]
      simp only [Bool.and_eq_true] at h
      have hm := takeDrop hv v0 r
      have e : List.replicate ((r.takeWhile (fun x => eqv x v0)).length + 4) v0 =
          [v0, v0, v0, v0] ++ List.replicate (r.takeWhile (fun x => eqv x v0)).length v0 := by
        rw [Nat.add_comm, List.replicate_add]; rfl
      refine ⟨_, .comp (n := (r.takeWhile (fun x => eqv x v0)).length + 4) hs (by omega) ?_, ?_⟩
      · rw [hc]
        have := congrArg List.length hm
        simp only [List.length_map, List.length_append, List.length_replicate] at this
        simp only [List.length_cons]; push_cast; omega
      · rw [e, List.append_assoc, List.map_append, hm]
        have h1 := hv _ _ h.1.1
        have h2 := hv _ _ h.1.2
        have h3 := hv _ _ h.2
        simp [h1, h2, h3]
    · rw [if_neg h]; exact hp

end Arr

open Arr in
/-- **C18**: building an array from elements, with given index sets, with the default index set and from rows, always gives an array
with these index sets whose elements are equal, one by one, to the given ones; whether the vector is compressed cannot be seen.
`eqv` is the equality test used for compression and `val` any meaning of expressions it respects. -/
theorem C18_build {α β : Type} (eqv : α → α → Bool) (val : α → β) (hv : ∀ x y, eqv x y = true → val x = val y) :
    (∀ (v : List α) (D : List (Int × Int)), Shape D → count D = v.length →
      ∃ E, IsArr (mkDims eqv v D) D E ∧ E.map val = v.map val) ∧
    (∀ v : List α, ∃ E, IsArr (mk1 eqv v) [(1, v.length)] E ∧ E.map val = v.map val) ∧
    (∀ (rows : List (List α)) (c : Nat), (∀ r ∈ rows, r.length = c) → (rows = [] → c = 0) →
      ∃ E, IsArr (mk2 eqv rows) [(1, rows.length), (1, c)] E ∧ E.map val = rows.flatten.map val) := by
  refine ⟨?_, ?_, ?_⟩
  · intro v D hs hc
    obtain ⟨E, h, h'⟩ := compress_wf hv hs hc
    exact ⟨E, h.isArr, h'⟩
  · intro v
    obtain ⟨E, h, h'⟩ := compress_wf hv (D := [(1, (v.length : Int))]) shape_one (count_one _)
    exact ⟨E, h.isArr, h'⟩
  · intro rows c hr he
    have hlen : rows.flatten.length = rows.length * c := by
      clear he
      induction rows with
      | nil => simp
      | cons a l ih =>
        have := hr a (by simp)
        have ih := ih (fun r hr' => hr r (by simp [hr']))
        simp only [List.flatten_cons, List.length_append, this, ih, List.length_cons, Nat.add_mul, Nat.one_mul]; omega
    have hd : ((rows.head?.map (fun r => (r.length : Int))).getD 0) = c := by
      cases rows with
      | nil => simp [he rfl]
      | cons a l => simp [hr a (by simp)]
    obtain ⟨E, h, h'⟩ := compress_wf hv (v := rows.flatten) (D := [(1, (rows.length : Int)), (1, (c : Int))])
      ⟨by simp, by simp⟩ (by simp [count, hlen])
    refine ⟨E, ?_, h'⟩
    have : mk2 eqv rows = compress eqv rows.flatten (flat [(1, (rows.length : Int)), (1, (c : Int))]) := by
      simp only [mk2, hd, flat]
    rw [this]; exact h.isArr

namespace Arr
variable {α : Type}

theorem slicePart {al : Lit α} {D' S : List (Int × Int)} (hn : ndims al = S.length) :
    pairsFrom (flat D' ++ flat S) (((flat D' ++ flat S).length - 2 * ndims al) / 2 * 2) (ndims al) = .ok S := by
  have hoff : ((flat D' ++ flat S).length - 2 * ndims al) / 2 * 2 = (flat D').length := by
    simp [flat_length, hn, Nat.mul_comm]
  have hp := pairsFrom_flat S (flat D') []
  rw [List.append_nil] at hp
  rw [hoff, hn]; exact hp

theorem redim_wf {a : Lit α} {D D' : List (Int × Int)} {E : List α} (h : Wf a D E) (hs : Shape D') (hc : count D' = E.length) :
    ∃ b, redim a D' = .ok b ∧ Wf b D' E := by
  cases h with
  | @plain v D hs0 hc0 =>
    refine ⟨_, rfl, ?_⟩
    simpa using wf_plain_or hs hc
  | plain1 =>
    refine ⟨_, rfl, ?_⟩
    simpa using wf_plain_or hs hc
  | @comp e n r D hs0 hn hc0 =>
    refine ⟨.vec (e :: r) true (flat D'), by simp [redim], .comp hs hn (by simpa using hc)⟩
  | @slice al D0 S D E0 E hw hi hs0 hc0 hp =>
    have hn : ndims al = S.length := by rw [hw.isArr.nd, inside_length hi]
    refine ⟨.slice al (flat D' ++ flat S), ?_, .slice hw hi hs (by rw [hc, hp.1]) hp⟩
    simp only [redim, slicePart hn, Res.ok_bind]

theorem redim1_wf {a : Lit α} {D : List (Int × Int)} {E : List α} (h : Wf a D E) :
    ∃ b, redim1 a = .ok b ∧ Wf b [(1, E.length)] E := by
  have hA := h.isArr
  cases h with
  | @plain v D hs0 hc0 => exact ⟨_, rfl, .plain1⟩
  | plain1 => exact ⟨_, rfl, .plain1⟩
  | @comp e n r D hs0 hn hc0 =>
    refine ⟨.vec (e :: r) true (flat [(1, ((List.replicate n e ++ r).length : Int))]), ?_, .comp shape_one hn ?_⟩
    · simp only [redim1, hA.len, Res.ok_bind]; rfl
    · rw [count_one]; simp
  | @slice al D0 S D E0 E hw hi hs0 hc0 hp =>
    have hn : ndims al = S.length := by rw [hw.isArr.nd, inside_length hi]
    refine ⟨.slice al (flat [(1, (E.length : Int))] ++ flat S), ?_, .slice hw hi shape_one (by rw [count_one, hp.1]) hp⟩
    simp only [redim1, hA.siz, slicePart hn, Res.ok_bind]; rfl

theorem make1d_wf {v : List α} {f : Bool} {d : List Int} {D : List (Int × Int)} {E : List α} (h : Wf (.vec v f d) D E) :
    ∃ b, make1d (.vec v f d) = .ok b ∧ Wf b [(1, E.length)] E := by
  have hA := h.isArr
  cases h with
  | @plain v D hs0 hc0 =>
    refine ⟨.vec v false (flat [(1, (v.length : Int))]), ?_, .plain shape_one (count_one _)⟩
    simp [make1d, Lit.raw, List.isEmpty_eq_false_iff.1 (flat_isEmpty hs0.1), hA.len, flat]
  | plain1 => exact ⟨_, rfl, .plain1⟩
  | @comp e n r D hs0 hn hc0 =>
    refine ⟨.vec (e :: r) true (flat [(1, ((List.replicate n e ++ r).length : Int))]), ?_, .comp shape_one hn ?_⟩
    · simp [make1d, Lit.raw, List.isEmpty_eq_false_iff.1 (flat_isEmpty hs0.1), hA.len, flat]
    · rw [count_one]; simp

theorem accLoop_in : ∀ {D : List (Int × Int)} {t : List Int} (acc : Int), InBox D t →
    accLoop D t (prodW D) acc = .ok (some (acc + rank D t))
  | [], [], acc, _ => by simp [accLoop, rank]
  | (lo, hi) :: r, x :: xs, acc, h => by
    obtain ⟨h1, h2, h3⟩ := h
    have hr : ∀ p ∈ r, p.1 ≤ p.2 + 1 := by
      clear h1 h2
      induction r generalizing xs with
      | nil => simp
      | cons p r ih =>
        obtain ⟨a, b⟩ := p
        match xs, h3 with
        | y :: ys, h3 =>
          intro q hq
          simp only [List.mem_cons] at hq
          rcases hq with rfl | hq
          · have := h3.1; have := h3.2.1; simp only; omega
          · exact ih ys h3.2.2 q hq
    have hd : (prodW ((lo, hi) :: r)).tdiv (hi - lo + 1) = prodW r := by
      simp only [prodW]
      exact Int.mul_tdiv_cancel_left _ (by omega)
    simp only [accLoop]
    rw [if_neg (by omega), hd, accLoop_in _ h3]
    simp only [rank, prodW_eq hr]
    rw [Int.add_assoc]
  | [], _ :: _, _, h => h.elim
  | _ :: _, [], _, h => h.elim

theorem accLoop_out : ∀ {D : List (Int × Int)} {t : List Int} (w acc : Int), t.length = D.length → ¬ InBox D t →
    accLoop D t w acc = .ok none
  | [], [], _, _, _, h => absurd trivial h
  | (lo, hi) :: r, x :: xs, w, acc, hl, h => by
    simp only [accLoop]
    by_cases hx : x < lo ∨ x > hi
    · rw [if_pos hx]
    · rw [if_neg hx]
      exact accLoop_out _ _ (by simpa using hl) (fun hb => h ⟨by omega, by omega, hb⟩)
  | [], _ :: _, _, _, hl, _ => by simp at hl
  | _ :: _, [], _, _, hl, _ => by simp at hl

end Arr

open Arr in
/-- **C18**: giving an array new index sets with as many elements, or the default index set, keeps its elements; so does turning a
vector into a one-dimensional array in place. -/
theorem C18_reshape {α : Type} (a : Lit α) (D : List (Int × Int)) (E : List α) (h : Wf a D E) :
    (∀ D', Shape D' → count D' = E.length → ∃ b, redim a D' = .ok b ∧ Wf b D' E ∧ IsArr b D' E) ∧
    (∃ b, redim1 a = .ok b ∧ Wf b [(1, E.length)] E ∧ IsArr b [(1, E.length)] E) ∧
    ((∃ v f d, a = .vec v f d) → ∃ b, make1d a = .ok b ∧ Wf b [(1, E.length)] E ∧ IsArr b [(1, E.length)] E) := by
  refine ⟨?_, ?_, ?_⟩
  · intro D' hs hc
    obtain ⟨b, h1, h2⟩ := redim_wf h hs hc
    exact ⟨b, h1, h2, h2.isArr⟩
  · obtain ⟨b, h1, h2⟩ := redim1_wf h
    exact ⟨b, h1, h2, h2.isArr⟩
  · rintro ⟨v, f, d, rfl⟩
    obtain ⟨b, h1, h2⟩ := make1d_wf h
    exact ⟨b, h1, h2, h2.isArr⟩

open Arr in
/-- **C18**: an array access with indices inside the index sets reads the element at the row-major position of the indices; with an
index outside it is out of bounds. -/
theorem C18_access {α : Type} (a : Lit α) (D : List (Int × Int)) (E : List α) (h : IsArr a D E) (t : List Int)
    (ht : t.length = D.length) :
    (InBox D t → ∃ e, E[(rank D t).toNat]? = some e ∧ access a t = .ok (some e)) ∧ (¬ InBox D t → access a t = .ok none) := by
  have hb := boundsFrom_eq h.lo h.hi D.length 0 (by omega)
  constructor
  · intro hin
    obtain ⟨r1, r2⟩ := rank_bounds hin
    have hk : (rank D t).toNat < E.length := by have := h.total; omega
    refine ⟨E[(rank D t).toNat], List.getElem?_eq_getElem hk, ?_⟩
    simp only [access, h.nd, hb, Res.ok_bind, List.drop_zero, accLoop_in 0 hin, Int.zero_add]
    rw [if_neg (by omega), h.elem _ _ (List.getElem?_eq_getElem hk)]; rfl
  · intro hout
    simp only [access, h.nd, hb, Res.ok_bind, List.drop_zero, accLoop_out _ _ ht hout]

open Arr in
/-- **C18**: the row-major position is a bijection between the index tuples and the positions. -/
theorem C18_rank_bijective (D : List (Int × Int)) :
    (∀ t, InBox D t → 0 ≤ rank D t ∧ rank D t < count D) ∧
    (∀ k, 0 ≤ k → k < count D → ∃ t, InBox D t ∧ rank D t = k ∧ ∀ u, InBox D u → rank D u = k → u = t) := by
  refine ⟨fun t h => rank_bounds h, fun k h0 h1 => ?_⟩
  obtain ⟨t, ht, hr⟩ := rank_surj D k h0 h1
  exact ⟨t, ht, hr, fun u hu hk => rank_inj hu ht (by rw [hk, hr])⟩

open Arr in
/-- **C19**: a slice of an array is an array with the given index sets whose element for a tuple of indices of the slice is the
element of the sliced array at these indices; so reading a slice (or a slice of a slice, …) never leaves the underlying array. -/
theorem C19_slice {α : Type} (a : Lit α) (D : List (Int × Int)) (E : List α) (h : Wf a D E) (S D' : List (Int × Int))
    (hi : Inside S D) (hs : Shape D') (hc : count D' = count S) :
    ∃ b E', mkSlice a D' S = .ok b ∧ Wf b D' E' ∧ IsArr b D' E' ∧ (E'.length : Int) = count S ∧
      ∀ t, InBox S t → ∃ e, E[(rank D t).toNat]? = some e ∧ E'[(rank S t).toNat]? = some e ∧
        get b (rank S t).toNat = .ok e ∧ access a t = .ok (some e) := by
  have hA := h.isArr
  have hl := inside_length hi
  have hcn := count_nonneg S
  have hex : ∀ k : Nat, ∃ e : Option α, (k : Int) < count S → ∀ t, InBox S t → rank S t = k → e = E[(rank D t).toNat]? := by
    intro k
    by_cases hk : (k : Int) < count S
    · obtain ⟨t, ht, hr⟩ := rank_surj S k (by omega) hk
      refine ⟨E[(rank D t).toNat]?, fun _ u hu hru => ?_⟩
      rw [rank_inj hu ht (by rw [hru, hr])]
    · exact ⟨none, fun h => absurd h hk⟩
  choose f hf using hex
  have hsome : ∀ t, InBox S t → ∃ e, E[(rank D t).toNat]? = some e := by
    intro t ht
    obtain ⟨r1, r2⟩ := rank_bounds (inside_box hi ht)
    have hk : (rank D t).toNat < E.length := by have := hA.total; omega
    exact ⟨_, List.getElem?_eq_getElem hk⟩
  have hfs : ∀ k : Nat, (k : Int) < count S → (f k).isSome := by
    intro k hk
    obtain ⟨t, ht, hr⟩ := rank_surj S k (by omega) hk
    rw [hf k hk t ht hr]
    obtain ⟨e, he⟩ := hsome t ht
    rw [he]; rfl
  let E' : List α := List.ofFn (n := (count S).toNat) (fun k => (f k).get (hfs k (by have := k.2; omega)))
  have hE'l : (E'.length : Int) = count S := by simp [E', Int.toNat_of_nonneg hcn]
  have hE' : ∀ t, InBox S t → E'[(rank S t).toNat]? = E[(rank D t).toNat]? := by
    intro t ht
    obtain ⟨r1, r2⟩ := rank_bounds ht
    have hk : (rank S t).toNat < (count S).toNat := by omega
    have hkl : (rank S t).toNat < E'.length := by omega
    rw [List.getElem?_eq_getElem hkl]
    have := hf (rank S t).toNat (by omega) t ht (by omega)
    rw [← this]
    simp [E']
  have hw : Wf (.slice a (flat D' ++ flat S)) D' E' := .slice h hi hs hc ⟨hE'l, hE'⟩
  refine ⟨_, E', by simp [mkSlice, hl, hA.nd], hw, hw.isArr, hE'l, ?_⟩
  intro t ht
  obtain ⟨e, he⟩ := hsome t ht
  refine ⟨e, he, by rw [hE' t ht, he], hw.isArr.elem _ _ (by rw [hE' t ht, he]), ?_⟩
  have hbox := inside_box hi ht
  obtain ⟨e2, h1, h2⟩ := (C18_access a D E hA t (inBox_length hbox)).1 hbox
  rw [he] at h1; cases h1; exact h2

open Arr in
/-- **C18**: overwriting an element of an uncompressed array changes that element only. -/
theorem C18_set {α : Type} (v : List α) (d : List Int) (D : List (Int × Int)) (E : List α) (h : Wf (.vec v false d) D E) (i : Nat)
    (hi : i < E.length) (e : α) : ∃ b, set (.vec v false d) i e = .ok b ∧ Wf b D (E.set i e) ∧ IsArr b D (E.set i e) := by
  cases h with
  | @plain v D hs hc =>
    have hw : Wf (.vec (v.set i e) false (flat D)) D (v.set i e) := .plain hs (by simpa using hc)
    exact ⟨_, by simp [Arr.set, upd, hi], hw, hw.isArr⟩
  | plain1 =>
    have hw : Wf (.vec (v.set i e) false []) [(1, ((v.set i e).length : Int))] (v.set i e) := .plain1
    have hl : (v.set i e).length = v.length := by simp
    rw [hl] at hw
    exact ⟨_, by simp [Arr.set, upd, hi], hw, hw.isArr⟩

open Arr in
/-- **C18**, the compressed case: overwriting any element of the repeated prefix of a compressed array replaces the whole prefix. So
the interface `set` does not keep the other elements. -/
theorem C18_set_fails {α : Type} (x : α) (n : Nat) (r : List α) (D : List (Int × Int)) (hs : Shape D) (hn : 1 ≤ n)
    (hc : count D = n + r.length) (i : Nat) (hi : i < n) (e : α) :
    ∃ b, set (.vec (x :: r) true (flat D)) i e = .ok b ∧ IsArr b D (List.replicate n e ++ r) := by
  have hA := (Wf.comp (e := x) hs hn hc).isArr
  have hw := Wf.comp (e := e) hs hn hc
  refine ⟨_, ?_, hw.isArr⟩
  simp only [Arr.set, hA.len, Res.ok_bind, List.length_append, List.length_replicate, List.length_cons]
  rw [if_pos (by push_cast; omega)]
  simp [upd]

open Arr in
/-- **C19**, the function `make1d` on slices: it always reads past the end of the vector of bounds. -/
theorem C19_make1d_fails {α : Type} (al : Lit α) (D : List (Int × Int)) (E : List α) (h : Wf al D E) (S D' : List (Int × Int))
    (hi : Inside S D) (hs' : Shape D') (hc : count D' = count S) :
    ∃ b, mkSlice al D' S = .ok b ∧ make1d b = .ub := by
  obtain ⟨b, E', hb, _, hA, _⟩ := C19_slice al D E h S D' hi hs' hc
  refine ⟨b, hb, ?_⟩
  have hal : ndims al = S.length := by rw [h.isArr.nd, inside_length hi]
  have hb' : b = .slice al (flat D' ++ flat S) := by simpa [mkSlice, hal] using hb.symm
  subst hb'
  have hS : S ≠ [] := by
    have := inside_length hi
    have := List.length_pos_iff.2 h.isArr.shape.1
    intro hc; subst hc; simp at *; omega
  have hs := hs'.1
  have he : (flat D' ++ flat S).isEmpty = false := by
    have := flat_isEmpty hs
    cases h : flat D' with
    | nil => rw [h] at this; cases this
    | cons _ _ => rfl
  have hoff : ((flat D' ++ flat S).length - 2 * ndims al) / 2 * 2 + 2 = (flat D').length + 2 := by
    simp [flat_length, hal, Nat.mul_comm]
  have key : ∀ (n : Nat) (d : List Int) (k : Nat), d.length < k + (n + 1) → copyFrom d k (n + 1) = .ub := by
    intro n
    induction n with
    | zero =>
      intro d k hlt
      have : d[k]? = none := List.getElem?_eq_none (by omega)
      simp [copyFrom, at?, this]
    | succ n ih =>
      intro d k hlt
      rw [copyFrom, at?]
      cases d[k]? with
      | some x => simp only [Res.ok_bind, ih d (k + 1) (by omega)]; rfl
      | none => rfl
  have hSl : 0 < S.length := List.length_pos_iff.2 hS
  obtain ⟨m, hm⟩ : ∃ m, 2 * ndims al = m + 1 := ⟨2 * ndims al - 1, by omega⟩
  have hk := key m (flat D' ++ flat S) ((flat D').length + 2) (by simp [flat_length]; omega)
  rw [← hm] at hk
  simp only [make1d, Lit.raw, he, hA.len, Res.ok_bind, hoff, hk]; rfl

/-! Non-vacuity. -/
section
open Arr
/-- Six elements of which the first five are equal, in two rows. -/
example : mkDims (fun a b : Nat => a == b) [7, 7, 7, 7, 7, 8] [(0, 1), (1, 3)] = .vec [7, 8] true [0, 1, 1, 3] := rfl
example : Wf (.vec [7, 8] true (flat [(0, 1), (1, 3)])) [(0, 1), (1, 3)] [7, 7, 7, 7, 7, 8] :=
  .comp (n := 5) (r := [8]) ⟨by simp, by decide⟩ (by decide) (by decide)
example : (do let a ← mkSlice (.vec [1, 2, 3, 4, 5, 6] false [0, 1, 1, 3]) [(1, 2)] [(0, 1), (2, 2)]; access a [2]) =
    Res.ok (some 5) := rfl
example : Inside [(0, 1), (2, 2)] [(0, 1), (1, 3)] := by simp [Inside]
example : (do let a ← mkSlice (.vec [1, 2, 3, 4, 5, 6] false [0, 1, 1, 3]) [(1, 2)] [(0, 1), (2, 2)]; access a [3]) =
    Res.ok none := rfl
end

end MZ
