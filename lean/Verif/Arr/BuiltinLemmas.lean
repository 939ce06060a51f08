import Verif.Arr.Builtins
/-! # Block-wise copying -/
namespace MZ
namespace Arr
variable {α : Type}

theorem inBox_append : ∀ {P Q : List (Int × Int)} {p q : List Int}, InBox P p → InBox Q q → InBox (P ++ Q) (p ++ q)
  | [], _, [], _, _, h => h
  | (_, _) :: _, _, _ :: _, _, h, h' => ⟨h.1, h.2.1, inBox_append h.2.2 h'⟩
  | [], _, _ :: _, _, h, _ => h.elim
  | _ :: _, _, [], _, h, _ => h.elim

theorem inBox_split : ∀ {P Q : List (Int × Int)} {t : List Int}, InBox (P ++ Q) t → ∃ p q, t = p ++ q ∧ InBox P p ∧ InBox Q q
  | [], _, t, h => ⟨[], t, rfl, trivial, h⟩
  | (_, _) :: P, Q, x :: xs, h => by
    obtain ⟨p, q, e, h1, h2⟩ := inBox_split (P := P) h.2.2
    exact ⟨x :: p, q, by simp [e], ⟨h.1, h.2.1, h1⟩, h2⟩
  | _ :: _, _, [], h => h.elim

theorem rank_append : ∀ {P Q : List (Int × Int)} {p q : List Int}, p.length = P.length →
    rank (P ++ Q) (p ++ q) = rank P p * count Q + rank Q q
  | [], _, [], _, _ => by simp [rank]
  | (lo, hi) :: P, Q, x :: p, q, h => by
    simp only [List.cons_append, rank, rank_append (P := P) (p := p) (by simpa using h), count_append]
    ring
  | [], _, _ :: _, _, h => by simp at h
  | _ :: _, _, [], _, h => by simp at h

theorem rank_mid {P Q : List (Int × Int)} {p q : List Int} (h : p.length = P.length) (lo hi k : Int) :
    rank (P ++ (lo, hi) :: Q) (p ++ k :: q) =
      rank P p * (Max.max 0 (hi - lo + 1) * count Q) + ((k - lo) * count Q + rank Q q) := by
  rw [rank_append h]; rfl

theorem getRange_eq {a : Lit α} {D : List (Int × Int)} {E : List α} (h : IsArr a D E) : ∀ (n off : Nat), off + n ≤ E.length →
    getRange a off n = .ok ((E.drop off).take n)
  | 0, off, _ => by simp [getRange]
  | n + 1, off, hle => by
    have ho : off < E.length := by omega
    simp only [getRange, h.elem off _ (List.getElem?_eq_getElem ho), Res.ok_bind, getRange_eq h n (off + 1) (by omega)]
    rw [List.drop_eq_getElem_cons ho, List.take_succ_cons]

theorem take_drop_get (E : List α) (off n j : Nat) (hj : j < n) : ((E.drop off).take n)[j]? = E[off + j]? := by
  rw [List.getElem?_take_of_lt hj, List.getElem?_drop]

theorem take_drop_len (E : List α) (off n : Nat) (h : off + n ≤ E.length) : ((E.drop off).take n).length = n := by
  simp; omega

theorem concatBlocks_eq {a0 a1 : Lit α} {D0 D1 : List (Int × Int)} {E0 E1 : List α} (h0 : IsArr a0 D0 E0) (h1 : IsArr a1 D1 E1)
    (bs0 bs1 : Nat) : ∀ (n off0 off1 : Nat), off0 + n * bs0 ≤ E0.length → off1 + n * bs1 ≤ E1.length →
    ∃ R, concatBlocks a0 a1 bs0 bs1 n off0 off1 = .ok R ∧ R.length = n * (bs0 + bs1) ∧
      (∀ b j, b < n → j < bs0 → R[b * (bs0 + bs1) + j]? = E0[off0 + (b * bs0 + j)]?) ∧
      (∀ b j, b < n → j < bs1 → R[b * (bs0 + bs1) + (bs0 + j)]? = E1[off1 + (b * bs1 + j)]?)
  | 0, off0, off1, _, _ => ⟨[], rfl, by simp, by omega, by omega⟩
  | n + 1, off0, off1, l0, l1 => by
    rw [Nat.add_mul, Nat.one_mul] at l0 l1
    obtain ⟨R, e, hl, g0, g1⟩ := concatBlocks_eq h0 h1 bs0 bs1 n (off0 + bs0) (off1 + bs1) (by omega) (by omega)
    have x0 := take_drop_len E0 off0 bs0 (by omega)
    have x1 := take_drop_len E1 off1 bs1 (by omega)
    refine ⟨(E0.drop off0).take bs0 ++ ((E1.drop off1).take bs1 ++ R), by simp only [concatBlocks, getRange_eq h0 bs0 off0 (by omega), getRange_eq h1 bs1 off1 (by omega), e, Res.ok_bind],
      ?_, ?_, ?_⟩
    · simp only [List.length_append, x0, x1, hl]; ring
    · intro b j hb hj
      cases b with
      | zero =>
        rw [Nat.zero_mul, Nat.zero_add, List.getElem?_append_left (by omega), take_drop_get _ _ _ _ hj]; simp
      | succ b =>
        rw [Nat.add_mul, Nat.one_mul]
        rw [List.getElem?_append_right (by omega), List.getElem?_append_right (by omega), x0, x1,
          show b * (bs0 + bs1) + (bs0 + bs1) + j - bs0 - bs1 = b * (bs0 + bs1) + j by omega, g0 b j (by omega) hj]
        congr 1; rw [Nat.add_mul]; omega
    · intro b j hb hj
      cases b with
      | zero =>
        rw [Nat.zero_mul, Nat.zero_add, List.getElem?_append_right (by omega), x0, List.getElem?_append_left (by omega),
          show bs0 + j - bs0 = j by omega, take_drop_get _ _ _ _ hj]; simp
      | succ b =>
        rw [Nat.add_mul, Nat.one_mul]
        rw [List.getElem?_append_right (by omega), List.getElem?_append_right (by omega), x0, x1,
          show b * (bs0 + bs1) + (bs0 + bs1) + (bs0 + j) - bs0 - bs1 = b * (bs0 + bs1) + (bs0 + j) by omega, g1 b j (by omega) hj]
        congr 1; rw [Nat.add_mul]; omega

theorem selectVals_eq {a : Lit α} {D : List (Int × Int)} {E : List α} (h : IsArr a D E) (off inner span : Nat) (lo : Int)
    (hoff : off + span * inner ≤ E.length) : ∀ (vs : List Int), (∀ v ∈ vs, lo ≤ v ∧ v < lo + span) →
    ∃ R, selectVals a off inner lo vs = .ok R ∧ R.length = vs.length * inner ∧
      ∀ k v j, vs[k]? = some v → j < inner → R[k * inner + j]? = E[off + ((v - lo).toNat * inner + j)]?
  | [], _ => ⟨[], rfl, by simp, by simp⟩
  | v :: vs, hv => by
    obtain ⟨R, e, hl, g⟩ := selectVals_eq h off inner span lo hoff vs (fun w hw => hv w (by simp [hw]))
    have hv0 := hv v (by simp)
    have hb : (v - lo).toNat * inner + inner ≤ span * inner := by
      have : ((v - lo).toNat + 1) * inner ≤ span * inner := Nat.mul_le_mul_right _ (by omega)
      rw [Nat.add_mul, Nat.one_mul] at this; exact this
    have x0 := take_drop_len E (off + (v - lo).toNat * inner) inner (by omega)
    refine ⟨(E.drop (off + (v - lo).toNat * inner)).take inner ++ R, by simp only [selectVals, getRange_eq h inner _ (show off + (v - lo).toNat * inner + inner ≤ E.length by omega), e,
      Res.ok_bind], ?_, ?_⟩
    · simp only [List.length_append, x0, hl, List.length_cons]; ring
    · intro k w j hk hj
      cases k with
      | zero =>
        simp only [List.getElem?_cons_zero, Option.some.injEq] at hk
        subst hk
        rw [Nat.zero_mul, Nat.zero_add, List.getElem?_append_left (by omega), take_drop_get _ _ _ _ hj]
        congr 1; omega
      | succ k =>
        simp only [List.getElem?_cons_succ] at hk
        rw [Nat.add_mul, Nat.one_mul, List.getElem?_append_right (by omega), x0,
          show k * inner + inner + j - inner = k * inner + j by omega]
        exact g k w j hk hj

theorem selectBlocks_eq {a : Lit α} {D : List (Int × Int)} {E : List α} (h : IsArr a D E) (inner span : Nat) (lo : Int)
    (vs : List Int) (hv : ∀ v ∈ vs, lo ≤ v ∧ v < lo + span) : ∀ (n off : Nat), off + n * (span * inner) ≤ E.length →
    ∃ R, selectBlocks a inner (span * inner) lo vs n off = .ok R ∧ R.length = n * (vs.length * inner) ∧
      ∀ b k v j, b < n → vs[k]? = some v → j < inner →
        R[b * (vs.length * inner) + (k * inner + j)]? = E[off + (b * (span * inner) + ((v - lo).toNat * inner + j))]?
  | 0, _, _ => ⟨[], rfl, by simp, by omega⟩
  | n + 1, off, hoff => by
    rw [Nat.add_mul, Nat.one_mul] at hoff
    obtain ⟨R, e, hl, g⟩ := selectBlocks_eq h inner span lo vs hv n (off + span * inner) (by omega)
    obtain ⟨X, ex, hx, gx⟩ := selectVals_eq h off inner span lo (by omega) vs hv
    refine ⟨X ++ R, by simp only [selectBlocks, ex, e, Res.ok_bind], ?_, ?_⟩
    · simp only [List.length_append, hl, hx]; ring
    · intro b k v j hb hk hj
      have hkl : k < vs.length := by
        by_contra hc
        rw [List.getElem?_eq_none (by omega)] at hk; cases hk
      have hbd : k * inner + j < vs.length * inner := by
        have : (k + 1) * inner ≤ vs.length * inner := Nat.mul_le_mul_right _ (by omega)
        rw [Nat.add_mul, Nat.one_mul] at this; omega
      cases b with
      | zero =>
        rw [Nat.zero_mul, Nat.zero_add, List.getElem?_append_left (by omega), gx k v j hk hj]; simp
      | succ b =>
        rw [Nat.add_mul, Nat.one_mul, List.getElem?_append_right (by omega), hx,
          show b * (vs.length * inner) + vs.length * inner + (k * inner + j) - vs.length * inner =
            b * (vs.length * inner) + (k * inner + j) by omega, g b k v j (by omega) hk hj]
        congr 1; rw [Nat.add_mul]; omega

end Arr
end MZ
