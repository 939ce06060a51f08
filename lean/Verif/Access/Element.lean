import Verif.Access.Model
/-!
# The functions `element`
-/
namespace MZ
namespace Access
open Arr

theorem allIn_iff : ∀ (t : List Int) (D : List (Int × Int)), allIn t D = true ↔ InBox D t
  | [], [] => by simp [allIn, InBox]
  | [], _ :: _ => by simp [allIn, InBox]
  | _ :: _, [] => by simp [allIn, InBox]
  | i :: t, (lo, hi) :: D => by
    have : (decide (isIn i (lo, hi)) = true) ↔ (lo ≤ i ∧ i ≤ hi) := decide_eq_true_iff
    simp only [allIn, InBox, Bool.and_eq_true, this, allIn_iff t D, and_assoc]

theorem bndsIn_inBox : ∀ (bs : List (Option (Int × Int))) (t : List Int) (D : List (Int × Int)), t.length = D.length →
    (∀ (k : Nat) (l u x : Int), bs[k]? = some (some (l, u)) → t[k]? = some x → l ≤ x ∧ x ≤ u) →
    bndsIn bs D = true → InBox D t
  | [], [], [], _, _, _ => trivial
  | [], _, _ :: _, _, _, h => by simp [bndsIn] at h
  | [], _ :: _, [], h, _, _ => by simp at h
  | none :: _, _, _, _, _, h => by simp [bndsIn] at h
  | some (l, u) :: bs, _, [], _, _, h => by simp [bndsIn] at h
  | some (l, u) :: bs, [], _ :: _, h, _, _ => by simp at h
  | some (l, u) :: bs, x :: t, (lo, hi) :: D, hl, hs, h => by
    simp only [bndsIn, Bool.and_eq_true, decide_eq_true_eq] at h
    obtain ⟨⟨h1, h2⟩, h3⟩ := h
    obtain ⟨g1, g2⟩ := hs 0 l u x rfl rfl
    exact ⟨by omega, by omega, bndsIn_inBox bs t D (by simpa using hl) (fun k l u x a b => hs (k + 1) l u x a b) h3⟩

variable {dom : Int → Prop} {E : List Int} {r : Int}

theorem fzn_iff {i : Int} (hi : 1 ≤ i) : fznElement i E r ↔ E[(i - 1).toNat]? = some r := by
  simp [fznElement, hi]

theorem elementT_iff (hdom : ∀ e ∈ E, dom e) {i k : Int} {p : Int × Int} (hp : isIn i p) (hk : 0 ≤ k) (hl : k < E.length)
    (hi : i - p.1 = k) : elementT dom i p E r ↔ E[k.toNat]? = some r := by
  unfold elementT nonshifted
  rw [if_neg (by omega), fzn_iff (by omega), show i - (p.1 - 1) - 1 = k by omega]
  constructor
  · exact fun h => h.2.2
  · exact fun h => ⟨hdom r (List.mem_of_getElem? h), hp, h⟩

theorem elementT2_iff (hdom : ∀ e ∈ E, dom e) {i1 i2 k : Int} {p1 p2 : Int × Int} (h1 : isIn i1 p1) (h2 : isIn i2 p2)
    (hk : 0 ≤ k) (hl : k < E.length) (hi : i1 * card p2 + i2 - (p1.1 * card p2 + p2.1 - 1) - 1 = k) :
    elementT2 dom i1 i2 p1 p2 E r ↔ E[k.toNat]? = some r := by
  unfold elementT2 nonshifted2 nonshifted
  rw [if_neg (by omega), fzn_iff (by omega)]
  rw [show i1 * card p2 + i2 - (p1.1 * card p2 + p2.1 - 1) - (1 - 1) - 1 = k by omega]
  constructor
  · exact fun h => h.2.2.2
  · exact fun h => ⟨hdom r (List.mem_of_getElem? h), h1, h2, h⟩

theorem elementMt_iff (hdom : ∀ e ∈ E, dom e) {i k : Int} {p : Int × Int} (hp : isIn i p) (hk : 0 ≤ k) (hl : k < E.length)
    (hi : i - p.1 = k) : elementMt dom i p E r ↔ E[k.toNat]? = some r := by
  unfold elementMt nonshifted
  constructor
  · rintro ⟨i2, _, _, h, _, h'⟩
    rw [h hp, fzn_iff (by omega), show i - (p.1 - 1) - 1 = k by omega] at h'
    exact h'
  · intro h
    refine ⟨i, hdom r (List.mem_of_getElem? h), hp, fun _ => rfl, Or.inl hp, ?_⟩
    rw [fzn_iff (by omega), show i - (p.1 - 1) - 1 = k by omega]
    exact h

theorem elementMt_unique (hdom : ∀ e ∈ E, dom e) {i : Int} {p : Int × Int} (hE : (E.length : Int) = p.2 - p.1 + 1)
    (h0 : E.length ≠ 0) : ∃! r, elementMt dom i p E r := by
  by_cases hp : isIn i p
  · have hp' := hp
    unfold isIn at hp'
    refine ⟨E[(i - p.1).toNat]'(by omega), ?_, ?_⟩
    · show elementMt _ _ _ _ _
      rw [elementMt_iff hdom hp (k := i - p.1) (by omega) (by omega) rfl, List.getElem?_eq_getElem]
    · intro r h
      rw [elementMt_iff hdom hp (k := i - p.1) (by omega) (by omega) rfl,
        List.getElem?_eq_getElem (by omega)] at h
      exact (Option.some.inj h).symm
  · refine ⟨E[0]'(by omega), ⟨p.1, hdom _ (List.getElem_mem _), ⟨le_refl _, by omega⟩, fun h => absurd h hp, Or.inr rfl, ?_⟩, ?_⟩
    · show nonshifted _ _ _ _
      unfold nonshifted
      rw [fzn_iff (by omega), show p.1 - (p.1 - 1) - 1 = 0 by omega]
      exact List.getElem?_eq_getElem _
    · rintro r ⟨i2, _, _, _, h | h, h'⟩
      · exact absurd h hp
      · subst h
        unfold nonshifted at h'
        rw [fzn_iff (by omega), show p.1 - (p.1 - 1) - 1 = 0 by omega, Int.toNat_zero,
          List.getElem?_eq_getElem (by omega)] at h'
        exact (Option.some.inj h').symm

theorem card_of_in {i : Int} {p : Int × Int} (h : isIn i p) : card p = p.2 - p.1 + 1 := by
  unfold isIn at h; unfold card; omega

theorem elementMt2_unique (hdom : ∀ e ∈ E, dom e) {i1 i2 : Int} {p1 p2 : Int × Int} (hE : (E.length : Int) = count [p1, p2])
    (h0 : E.length ≠ 0) : ∃! r, elementMt2 dom i1 i2 p1 p2 E r := by
  have hc : p1.1 ≤ p1.2 ∧ p2.1 ≤ p2.2 := by
    obtain ⟨a, b⟩ := p1
    obtain ⟨c, d⟩ := p2
    simp only [count, mul_one] at hE
    constructor
    · by_contra h
      have : Max.max 0 (b - a + 1) = 0 := by simp only at h; omega
      rw [this, zero_mul] at hE; omega
    · by_contra h
      have : Max.max 0 (d - c + 1) = 0 := by simp only at h; omega
      rw [this, mul_zero] at hE; omega
  have key : ∀ j1 j2, isIn j1 p1 → isIn j2 p2 → ∃ e, (∃ h : ((j1 - p1.1) * card p2 + (j2 - p2.1)).toNat < E.length,
      e = E[((j1 - p1.1) * card p2 + (j2 - p2.1)).toNat]) ∧ ∀ r, nonshifted2 j1 j2 p1 p2 E r ↔ r = e := by
    intro j1 j2 h1 h2
    have hin : InBox [p1, p2] [j1, j2] := ⟨h1.1, h1.2, h2.1, h2.2, trivial⟩
    obtain ⟨r1, r2⟩ := rank_bounds hin
    have hr : rank [p1, p2] [j1, j2] = (j1 - p1.1) * card p2 + (j2 - p2.1) := by
      obtain ⟨a, b⟩ := p1
      obtain ⟨c, d⟩ := p2
      simp [rank, count, card]
    rw [hr] at r1 r2
    have hlt : ((j1 - p1.1) * card p2 + (j2 - p2.1)).toNat < E.length := by omega
    refine ⟨_, ⟨hlt, rfl⟩, fun r => ?_⟩
    unfold nonshifted2 nonshifted
    have e : j1 * card p2 + j2 - (p1.1 * card p2 + p2.1 - 1) - (1 - 1) = ((j1 - p1.1) * card p2 + (j2 - p2.1)) + 1 := by ring
    rw [e, fzn_iff (by omega), show ∀ x : Int, x + 1 - 1 = x from fun x => by omega, List.getElem?_eq_getElem hlt]
    simp [eq_comm]
  by_cases hp : isIn i1 p1 ∧ isIn i2 p2
  · obtain ⟨e, ⟨hlt, he⟩, hk⟩ := key i1 i2 hp.1 hp.2
    refine ⟨e, ⟨i1, i2, hdom _ (by rw [he]; exact List.getElem_mem _), hp.1, hp.2, fun _ => ⟨rfl, rfl⟩, Or.inl hp, (hk e).2 rfl⟩, ?_⟩
    rintro r ⟨j1, j2, _, _, _, h, _, h'⟩
    obtain ⟨rfl, rfl⟩ := h hp
    exact (hk r).1 h'
  · have q1 : isIn p1.1 p1 := ⟨le_refl _, hc.1⟩
    have q2 : isIn p2.1 p2 := ⟨le_refl _, hc.2⟩
    obtain ⟨e, ⟨hlt, he⟩, hk⟩ := key p1.1 p2.1 q1 q2
    refine ⟨e, ⟨p1.1, p2.1, hdom _ (by rw [he]; exact List.getElem_mem _), q1, q2, fun h => absurd h hp, Or.inr ⟨rfl, rfl⟩, (hk e).2 rfl⟩, ?_⟩
    rintro r ⟨j1, j2, _, _, _, _, h | h, h'⟩
    · exact absurd h hp
    · obtain ⟨rfl, rfl⟩ := h
      exact (hk r).1 h'

theorem elementMt2_iff (hdom : ∀ e ∈ E, dom e) {i1 i2 k : Int} {p1 p2 : Int × Int} (h1 : isIn i1 p1) (h2 : isIn i2 p2)
    (hk : 0 ≤ k) (hi : i1 * card p2 + i2 - (p1.1 * card p2 + p2.1 - 1) - 1 = k) :
    elementMt2 dom i1 i2 p1 p2 E r ↔ E[k.toNat]? = some r := by
  unfold elementMt2 nonshifted2 nonshifted
  have e : i1 * card p2 + i2 - (p1.1 * card p2 + p2.1 - 1) - (1 - 1) - 1 = k := by omega
  constructor
  · rintro ⟨j1, j2, _, _, _, h, _, h'⟩
    obtain ⟨rfl, rfl⟩ := h ⟨h1, h2⟩
    rw [fzn_iff (by omega), e] at h'
    exact h'
  · intro h
    refine ⟨i1, i2, hdom r (List.mem_of_getElem? h), h1, h2, fun _ => ⟨rfl, rfl⟩, Or.inl ⟨h1, h2⟩, ?_⟩
    rw [fzn_iff (by omega), e]
    exact h

/-- The numbers of dimensions there is a function `element` for. -/
def dimsOk (D : List (Int × Int)) : Prop := 1 ≤ D.length ∧ D.length ≤ 6

theorem elT_in (hdom : ∀ e ∈ E, dom e) {D : List (Int × Int)} {t : List Int} (hE : count D = E.length) (hd : dimsOk D)
    (ht : InBox D t) : elT dom E r t D ↔ E[(rank D t).toNat]? = some r := by
  obtain ⟨r1, r2⟩ := rank_bounds ht
  have hlen := inBox_length ht
  obtain ⟨d1, d2⟩ := hd
  rcases D with _ | ⟨⟨a1, b1⟩, _ | ⟨⟨a2, b2⟩, _ | ⟨⟨a3, b3⟩, _ | ⟨⟨a4, b4⟩, _ | ⟨⟨a5, b5⟩, _ | ⟨⟨a6, b6⟩, _ | ⟨q, D⟩⟩⟩⟩⟩⟩⟩
  · simp at d1
  · rcases t with _ | ⟨i1, _ | ⟨_, _⟩⟩ <;> simp at hlen
    simp only [elT]
    obtain ⟨h1, h2, -⟩ := ht
    refine elementT_iff hdom ⟨h1, h2⟩ r1 (by omega) ?_
    simp [rank, count]
  · rcases t with _ | ⟨i1, _ | ⟨i2, _ | ⟨_, _⟩⟩⟩ <;> simp at hlen
    simp only [elT]
    obtain ⟨h1, h2, h3, h4, -⟩ := ht
    refine elementT2_iff hdom ⟨h1, h2⟩ ⟨h3, h4⟩ r1 (by omega) ?_
    simp only [rank, count, card]; ring
  · rcases t with _ | ⟨i1, _ | ⟨i2, _ | ⟨i3, _ | ⟨_, _⟩⟩⟩⟩ <;> simp at hlen
    simp only [elT]
    have e : lin3 i1 i2 i3 (a1, b1) (a2, b2) (a3, b3) - 1 = rank [(a1, b1), (a2, b2), (a3, b3)] [i1, i2, i3] := by
      simp only [lin3, rank, count, card]; ring
    exact elementT_iff hdom ⟨by simp only; omega, by simp only; omega⟩ r1 (by omega) e
  · rcases t with _ | ⟨i1, _ | ⟨i2, _ | ⟨i3, _ | ⟨i4, _ | ⟨_, _⟩⟩⟩⟩⟩ <;> simp at hlen
    simp only [elT]
    have e : lin4 i1 i2 i3 i4 (a1, b1) (a2, b2) (a3, b3) (a4, b4) - 1 =
        rank [(a1, b1), (a2, b2), (a3, b3), (a4, b4)] [i1, i2, i3, i4] := by
      simp only [lin4, rank, count, card]; ring
    exact elementT_iff hdom ⟨by simp only; omega, by simp only; omega⟩ r1 (by omega) e
  · rcases t with _ | ⟨i1, _ | ⟨i2, _ | ⟨i3, _ | ⟨i4, _ | ⟨i5, _ | ⟨_, _⟩⟩⟩⟩⟩⟩ <;> simp at hlen
    simp only [elT]
    have e : lin5 i1 i2 i3 i4 i5 (a1, b1) (a2, b2) (a3, b3) (a4, b4) (a5, b5) - 1 =
        rank [(a1, b1), (a2, b2), (a3, b3), (a4, b4), (a5, b5)] [i1, i2, i3, i4, i5] := by
      simp only [lin5, rank, count, card]; ring
    exact elementT_iff hdom ⟨by simp only; omega, by simp only; omega⟩ r1 (by omega) e
  · rcases t with _ | ⟨i1, _ | ⟨i2, _ | ⟨i3, _ | ⟨i4, _ | ⟨i5, _ | ⟨i6, _ | ⟨_, _⟩⟩⟩⟩⟩⟩⟩ <;> simp at hlen
    simp only [elT]
    have e : lin6 i1 i2 i3 i4 i5 i6 (a1, b1) (a2, b2) (a3, b3) (a4, b4) (a5, b5) (a6, b6) - 1 =
        rank [(a1, b1), (a2, b2), (a3, b3), (a4, b4), (a5, b5), (a6, b6)] [i1, i2, i3, i4, i5, i6] := by
      simp only [lin6, rank, count, card]; ring
    exact elementT_iff hdom ⟨by simp only; omega, by simp only; omega⟩ r1 (by omega) e
  · simp at d2; omega

theorem elMt_in (hdom : ∀ e ∈ E, dom e) {D : List (Int × Int)} {t : List Int} (hE : count D = E.length) (hd : dimsOk D)
    (ht : InBox D t) : elMt dom E r t D ↔ E[(rank D t).toNat]? = some r := by
  obtain ⟨r1, r2⟩ := rank_bounds ht
  have hlen := inBox_length ht
  obtain ⟨d1, d2⟩ := hd
  rcases D with _ | ⟨⟨a1, b1⟩, _ | ⟨⟨a2, b2⟩, _ | ⟨⟨a3, b3⟩, _ | ⟨⟨a4, b4⟩, _ | ⟨⟨a5, b5⟩, _ | ⟨⟨a6, b6⟩, _ | ⟨q, D⟩⟩⟩⟩⟩⟩⟩
  · simp at d1
  · rcases t with _ | ⟨i1, _ | ⟨_, _⟩⟩ <;> simp at hlen
    simp only [elMt]
    obtain ⟨h1, h2, -⟩ := ht
    refine elementMt_iff hdom ⟨h1, h2⟩ r1 (by omega) ?_
    simp [rank, count]
  · rcases t with _ | ⟨i1, _ | ⟨i2, _ | ⟨_, _⟩⟩⟩ <;> simp at hlen
    simp only [elMt]
    obtain ⟨h1, h2, h3, h4, -⟩ := ht
    refine elementMt2_iff hdom ⟨h1, h2⟩ ⟨h3, h4⟩ r1 ?_
    simp only [rank, count, card]; ring
  · rcases t with _ | ⟨i1, _ | ⟨i2, _ | ⟨i3, _ | ⟨_, _⟩⟩⟩⟩ <;> simp at hlen
    simp only [elMt]
    have e : lin3 i1 i2 i3 (a1, b1) (a2, b2) (a3, b3) - 1 = rank [(a1, b1), (a2, b2), (a3, b3)] [i1, i2, i3] := by
      simp only [lin3, rank, count, card]; ring
    exact elementMt_iff hdom ⟨by simp only; omega, by simp only; omega⟩ r1 (by omega) e
  · rcases t with _ | ⟨i1, _ | ⟨i2, _ | ⟨i3, _ | ⟨i4, _ | ⟨_, _⟩⟩⟩⟩⟩ <;> simp at hlen
    simp only [elMt]
    have e : lin4 i1 i2 i3 i4 (a1, b1) (a2, b2) (a3, b3) (a4, b4) - 1 =
        rank [(a1, b1), (a2, b2), (a3, b3), (a4, b4)] [i1, i2, i3, i4] := by
      simp only [lin4, rank, count, card]; ring
    exact elementMt_iff hdom ⟨by simp only; omega, by simp only; omega⟩ r1 (by omega) e
  · rcases t with _ | ⟨i1, _ | ⟨i2, _ | ⟨i3, _ | ⟨i4, _ | ⟨i5, _ | ⟨_, _⟩⟩⟩⟩⟩⟩ <;> simp at hlen
    simp only [elMt]
    have e : lin5 i1 i2 i3 i4 i5 (a1, b1) (a2, b2) (a3, b3) (a4, b4) (a5, b5) - 1 =
        rank [(a1, b1), (a2, b2), (a3, b3), (a4, b4), (a5, b5)] [i1, i2, i3, i4, i5] := by
      simp only [lin5, rank, count, card]; ring
    exact elementMt_iff hdom ⟨by simp only; omega, by simp only; omega⟩ r1 (by omega) e
  · rcases t with _ | ⟨i1, _ | ⟨i2, _ | ⟨i3, _ | ⟨i4, _ | ⟨i5, _ | ⟨i6, _ | ⟨_, _⟩⟩⟩⟩⟩⟩⟩ <;> simp at hlen
    simp only [elMt]
    have e : lin6 i1 i2 i3 i4 i5 i6 (a1, b1) (a2, b2) (a3, b3) (a4, b4) (a5, b5) (a6, b6) - 1 =
        rank [(a1, b1), (a2, b2), (a3, b3), (a4, b4), (a5, b5), (a6, b6)] [i1, i2, i3, i4, i5, i6] := by
      simp only [lin6, rank, count, card]; ring
    exact elementMt_iff hdom ⟨by simp only; omega, by simp only; omega⟩ r1 (by omega) e
  · simp at d2; omega

theorem elMt_unique (hdom : ∀ e ∈ E, dom e) {D : List (Int × Int)} {t : List Int} (hE : count D = E.length) (hd : dimsOk D)
    (hlen : t.length = D.length) (h0 : E.length ≠ 0) : ∃! r, elMt dom E r t D := by
  obtain ⟨d1, d2⟩ := hd
  have big : ∀ i : Int, ∃! r, elementMt dom i (1, E.length) E r := fun i => elementMt_unique hdom (by simp) h0
  rcases D with _ | ⟨⟨a1, b1⟩, _ | ⟨⟨a2, b2⟩, _ | ⟨⟨a3, b3⟩, _ | ⟨⟨a4, b4⟩, _ | ⟨⟨a5, b5⟩, _ | ⟨⟨a6, b6⟩, _ | ⟨q, D⟩⟩⟩⟩⟩⟩⟩
  · simp at d1
  · rcases t with _ | ⟨i1, _ | ⟨_, _⟩⟩ <;> simp at hlen
    simp only [elMt]
    refine elementMt_unique hdom ?_ h0
    simp only [count, mul_one] at hE
    simp only
    omega
  · rcases t with _ | ⟨i1, _ | ⟨i2, _ | ⟨_, _⟩⟩⟩ <;> simp at hlen
    simp only [elMt]
    exact elementMt2_unique hdom hE.symm h0
  · rcases t with _ | ⟨i1, _ | ⟨i2, _ | ⟨i3, _ | ⟨_, _⟩⟩⟩⟩ <;> simp at hlen
    exact big _
  · rcases t with _ | ⟨i1, _ | ⟨i2, _ | ⟨i3, _ | ⟨i4, _ | ⟨_, _⟩⟩⟩⟩⟩ <;> simp at hlen
    exact big _
  · rcases t with _ | ⟨i1, _ | ⟨i2, _ | ⟨i3, _ | ⟨i4, _ | ⟨i5, _ | ⟨_, _⟩⟩⟩⟩⟩⟩ <;> simp at hlen
    exact big _
  · rcases t with _ | ⟨i1, _ | ⟨i2, _ | ⟨i3, _ | ⟨i4, _ | ⟨i5, _ | ⟨i6, _ | ⟨_, _⟩⟩⟩⟩⟩⟩⟩ <;> simp at hlen
    exact big _
  · simp at d2; omega

theorem elT_empty {D : List (Int × Int)} {t : List Int} (hd : dimsOk D) (hlen : t.length = D.length) (h0 : E.length = 0) :
    elT dom E r t D ↔ r = 0 := by
  obtain ⟨d1, d2⟩ := hd
  rcases D with _ | ⟨⟨a1, b1⟩, _ | ⟨⟨a2, b2⟩, _ | ⟨⟨a3, b3⟩, _ | ⟨⟨a4, b4⟩, _ | ⟨⟨a5, b5⟩, _ | ⟨⟨a6, b6⟩, _ | ⟨q, D⟩⟩⟩⟩⟩⟩⟩
  · simp at d1
  · rcases t with _ | ⟨i1, _ | ⟨_, _⟩⟩ <;> simp at hlen
    simp [elT, elementT, h0]
  · rcases t with _ | ⟨i1, _ | ⟨i2, _ | ⟨_, _⟩⟩⟩ <;> simp at hlen
    simp [elT, elementT2, h0]
  · rcases t with _ | ⟨i1, _ | ⟨i2, _ | ⟨i3, _ | ⟨_, _⟩⟩⟩⟩ <;> simp at hlen
    simp [elT, elementT, h0]
  · rcases t with _ | ⟨i1, _ | ⟨i2, _ | ⟨i3, _ | ⟨i4, _ | ⟨_, _⟩⟩⟩⟩⟩ <;> simp at hlen
    simp [elT, elementT, h0]
  · rcases t with _ | ⟨i1, _ | ⟨i2, _ | ⟨i3, _ | ⟨i4, _ | ⟨i5, _ | ⟨_, _⟩⟩⟩⟩⟩⟩ <;> simp at hlen
    simp [elT, elementT, h0]
  · rcases t with _ | ⟨i1, _ | ⟨i2, _ | ⟨i3, _ | ⟨i4, _ | ⟨i5, _ | ⟨i6, _ | ⟨_, _⟩⟩⟩⟩⟩⟩⟩ <;> simp at hlen
    simp [elT, elementT, h0]
  · simp at d2; omega

/-- The bounds known for the indices are correct. -/
def BoundsOk (bs : List (Option (Int × Int))) (t : List Int) : Prop :=
  ∀ (k : Nat) (l u x : Int), bs[k]? = some (some (l, u)) → t[k]? = some x → l ≤ x ∧ x ≤ u

/-- **C68**: the function `element` with one to six variable indices. In every context but the root context, exactly one
definedness and one result satisfy its constraints; the definedness is that the indices are in the index sets, and then the result
is the element at this position. In the root context the constraints hold exactly for indices in the index sets and this element. -/
theorem _root_.MZ.C68_element (bs : List (Option (Int × Int))) (dom : Int → Prop) (t : List Int) (D : List (Int × Int))
    (E : List Int) (hdom : ∀ e ∈ E, dom e) (hE : count D = E.length) (hd : dimsOk D) (hlen : t.length = D.length)
    (hbs : BoundsOk bs t) :
    (∃ b r, element false bs dom t D E b r ∧ (∀ b' r', element false bs dom t D E b' r' → b' = b ∧ r' = r) ∧
      (b = true ↔ InBox D t) ∧ (InBox D t → E[(rank D t).toNat]? = some r)) ∧
    (∀ r, element true bs dom t D E true r ↔ InBox D t ∧ E[(rank D t).toNat]? = some r) := by
  have hget : InBox D t → ∃ e, E[(rank D t).toNat]? = some e := fun h => by
    obtain ⟨r1, r2⟩ := rank_bounds h
    exact ⟨_, List.getElem?_eq_getElem (by omega)⟩
  have hne : InBox D t → E.length ≠ 0 := fun h => by
    obtain ⟨r1, r2⟩ := rank_bounds h
    omega
  constructor
  · unfold element
    simp only [Bool.false_eq_true, or_false]
    by_cases h0 : E.length = 0
    · simp only [if_pos h0, elT_empty hd hlen h0]
      refine ⟨allIn t D, 0, ⟨rfl, rfl⟩, fun b' r' h => h, allIn_iff t D, fun h => absurd h0 (hne h)⟩
    · simp only [if_neg h0]
      split
      · rename_i hb
        have hin := bndsIn_inBox bs t D hlen hbs hb
        obtain ⟨e, he⟩ := hget hin
        simp only [elT_in hdom hE hd hin]
        refine ⟨true, e, ⟨rfl, he⟩, fun b' r' h => ⟨h.1, ?_⟩, by simp [hin], fun _ => he⟩
        rw [he] at h
        exact (Option.some.inj h.2).symm
      · obtain ⟨e, he, hu⟩ := elMt_unique hdom hE hd hlen h0
        refine ⟨allIn t D, e, ⟨rfl, he⟩, fun b' r' h => ⟨h.1, hu r' h.2⟩, allIn_iff t D, fun h => ?_⟩
        exact (elMt_in hdom hE hd h).1 he
  · intro r
    unfold element
    simp only [or_true, if_true]
    constructor
    · rintro ⟨h1, h2⟩
      have hin := (allIn_iff t D).1 h1.symm
      exact ⟨hin, (elT_in hdom hE hd hin).1 h2⟩
    · rintro ⟨h1, h2⟩
      exact ⟨((allIn_iff t D).2 h1).symm, (elT_in hdom hE hd h1).2 h2⟩

/-- An array with two dimensions meets the hypotheses. -/
example : ∃ b r, element false [none, none] (fun _ => True) [2, 5] [(1, 2), (4, 6)] [10, 11, 12, 13, 14, 15] b r ∧ b = true ∧ r = 14 := by
  obtain ⟨⟨b, r, h1, -, h3, h4⟩, -⟩ := C68_element [none, none] (fun _ => True) [2, 5] [(1, 2), (4, 6)] [10, 11, 12, 13, 14, 15]
    (fun _ _ => trivial) (by decide) (by unfold dimsOk; decide) rfl (fun k l u x h => by
      rcases k with _ | _ | k <;> simp at h)
  have hin : InBox [(1, 2), (4, 6)] [2, 5] := by decide
  refine ⟨b, r, h1, h3.2 hin, ?_⟩
  have := h4 hin
  simp [rank, count] at this
  exact this.symm

end Access
end MZ
