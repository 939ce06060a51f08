import Verif.Linear.FlattenSpec
import Verif.Linear.Props
/-!
# Lemmas for `flatten_linexp_binop`
-/
namespace MZ
namespace Linear
open Domain (Cmp)

theorem sum_append (ρ : Atom → Int) (a b : List (Int × Atom)) : sum ρ (a ++ b) = sum ρ a + sum ρ b := by
  unfold sum; rw [List.map_append, List.sum_append]

theorem sum_cons (ρ : Atom → Int) (t : Int × Atom) (b : List (Int × Atom)) :
    sum ρ (t :: b) = t.1 * t.2.eval ρ + sum ρ b := by
  unfold sum; rw [List.map_cons, List.sum_cons]

theorem sum_nil (ρ : Atom → Int) : sum ρ [] = 0 := rfl

theorem fin_denote (k : Int) : (IntVal.fin k).denote = some (.fin k) := rfl

theorem add_ok_fin {d : Int} {t r : IntVal} (h : IntVal.add (.fin d) t = .ok r) :
    t.inf = false ∧ r = .fin (d + t.v) ∧ inLL (d + t.v) := by
  unfold IntVal.add IntVal.isFinite at h
  cases ht : t.inf with
  | true => simp [ht, IntVal.fin] at h
  | false =>
    simp only [ht, IntVal.fin, Bool.not_false, Bool.and_self, Bool.not_true, Bool.false_eq_true,
      if_false] at h
    cases hp : safePlus d t.v with
    | ok z =>
      rw [hp] at h
      simp only [Res.ok_map, Res.ok.injEq] at h
      have := safePlus_ok hp
      rw [← h]
      exact ⟨rfl, by rw [this.1], this.1 ▸ this.2⟩
    | err => rw [hp] at h; simp at h
    | ub => rw [hp] at h; simp at h

theorem mul_ok_fin {s : Int} {v t : IntVal} (h : IntVal.mul (.fin s) v = .ok t) (ht : t.inf = false) :
    v.inf = false ∧ t = .fin (s * v.v) := by
  unfold IntVal.mul IntVal.isFinite at h
  cases hv : v.inf with
  | true =>
    simp only [hv, IntVal.fin, Bool.not_false, Bool.not_true, Bool.false_eq_true, if_false,
      Bool.true_and, if_true] at h
    split at h
    · rw [Res.bind_eq_ok] at h
      obtain ⟨z, _, h⟩ := h
      simp only [Res.ok.injEq] at h
      rw [← h] at ht; simp at ht
    · simp at h
  | false =>
    simp only [hv, IntVal.fin, Bool.not_false, Bool.not_true, Bool.false_eq_true, if_false] at h
    cases hp : safeMult s v.v with
    | ok z =>
      rw [hp] at h
      simp only [Res.ok_map, Res.ok.injEq] at h
      rw [← h, (safeMult_ok hp).1]
      exact ⟨rfl, rfl⟩
    | err => rw [hp] at h; simp at h
    | ub => rw [hp] at h; simp at h

theorem collect_ok {sign : Int} {s : Side} {ts ts' : List (Int × Atom)} {d d' : Int}
    (h : collect sign s ts d = .ok (ts', d')) (hd : inLL d) (ρ : Atom → Int) {x : Ext}
    (hx : s.val ρ = some x) :
    inLL d' ∧ ∃ k, x = .fin k ∧ sum ρ ts' + d' = sum ρ ts + d + sign * k := by
  cases s with
  | const v =>
    simp only [collect, Res.bind_eq_ok] at h
    obtain ⟨t, h1, r, h2, h3⟩ := h
    simp only [Res.ok.injEq, Prod.mk.injEq] at h3
    obtain ⟨rfl, rfl⟩ := h3
    obtain ⟨a1, a2, a3⟩ := add_ok_fin h2
    obtain ⟨b1, b2⟩ := mul_ok_fin h1 a1
    subst b2 a2
    refine ⟨a3, v.v, ?_, ?_⟩
    · simp only [Side.val, IntVal.denote, b1] at hx
      simpa using hx.symm
    · simp only [IntVal.fin]; ring
  | atom a =>
    simp only [collect, Res.ok.injEq, Prod.mk.injEq] at h
    obtain ⟨rfl, rfl⟩ := h
    simp only [Side.val, Option.some.injEq] at hx
    refine ⟨hd, a.eval ρ, hx.symm, ?_⟩
    rw [sum_append, sum_cons, sum_nil]; ring
  | lin us k =>
    simp only [collect, Res.bind_eq_ok] at h
    obtain ⟨t, h1, r, h2, us', h3, h4⟩ := h
    simp only [Res.ok.injEq, Prod.mk.injEq] at h4
    obtain ⟨rfl, rfl⟩ := h4
    simp only [Side.val, Option.some.injEq] at hx
    refine ⟨(safePlus_ok h2).2, sum ρ us + k, hx.symm, ?_⟩
    rw [sum_append, scale_sum _ _ _ _ h3, (safePlus_ok h2).1, (safeMult_ok h1).1]; ring

theorem addMul_inLL {d c v z : Int} (h : addMul d c v = .ok z) : inLL z := by
  unfold addMul at h; rw [Res.bind_eq_ok] at h; obtain ⟨t, h1, h2⟩ := h
  exact (safePlus_ok h2).2

theorem foldLits_inLL (x : Nat → Atom) :
    ∀ (idx : List Nat) (c : Nat → Int) (d : Int) (r : (Nat → Int) × Int × List Nat),
      inLL d → foldLits x idx c d = .ok r → inLL r.2.1 := by
  intro idx
  induction idx with
  | nil => intro c d r hd h; simp only [foldLits, Res.ok.injEq] at h; subst h; exact hd
  | cons i is ih =>
    intro c d r hd h
    rw [foldLits] at h
    split at h
    · rw [Res.bind_eq_ok] at h; obtain ⟨d', h1, h2⟩ := h
      exact ih _ _ _ (addMul_inLL h1) h2
    · simp only [Res.ok.injEq] at h; subst h; exact hd

theorem merge_inLL (x : Nat → Atom) :
    ∀ (is : List Nat) (cur : Nat) (c : Nat → Int) (d : Int) (r : (Nat → Int) × Int),
      inLL d → merge x cur is c d = .ok r → inLL r.2 := by
  intro is
  induction is with
  | nil => intro cur c d r hd h; simp only [merge, Res.ok.injEq] at h; subst h; exact hd
  | cons i is ih =>
    intro cur c d r hd h
    rw [merge] at h
    split at h
    · rw [Res.bind_eq_ok] at h; obtain ⟨s, h1, h2⟩ := h
      exact ih _ _ _ _ hd h2
    · split at h
      · rw [Res.bind_eq_ok] at h; obtain ⟨d', h1, h2⟩ := h
        exact ih _ _ _ _ (addMul_inLL h1) h2
      · exact ih _ _ _ _ hd h

theorem simplify_inLL {idx : List Nat} {ts ts' : List (Int × Atom)} {d d' : Int} (hd : inLL d)
    (h : simplifyLinIdx idx ts d = .ok (ts', d')) : inLL d' := by
  unfold simplifyLinIdx at h
  rw [Res.bind_eq_ok] at h
  obtain ⟨⟨c1, d1, rest⟩, h1, h2⟩ := h
  have hv := foldLits_inLL _ _ _ _ _ hd h1
  cases rest with
  | nil =>
    simp only [Res.ok.injEq, Prod.mk.injEq] at h2
    obtain ⟨rfl, rfl⟩ := h2; exact hv
  | cons cur is =>
    rw [Res.bind_eq_ok] at h2
    obtain ⟨⟨c2, d2⟩, h3, h4⟩ := h2
    simp only [Res.ok.injEq, Prod.mk.injEq] at h4
    obtain ⟨rfl, rfl⟩ := h4
    exact merge_inLL _ _ _ _ _ _ hv h3

theorem subsumed_holds {bot : Cmp} {l u : Ext} {x d : Int} (h : subsumed bot l u (.fin d) = true)
    (hl : l ≤ .fin x) (hu : .fin x ≤ u) : bot.holds x d := by
  cases bot <;> simp only [subsumed, decide_eq_true_eq, Bool.and_eq_true, Bool.or_eq_true] at h <;>
    simp only [Cmp.holds]
  · have := lt_of_le_of_lt hu h; simpa using this
  · have := le_trans hu h; simpa using this
  · have := lt_of_lt_of_le h hl; simpa using this
  · have := le_trans h hl; simpa using this
  · rcases h with h | h
    · have := lt_of_le_of_lt hu h; simp at this; omega
    · have := lt_of_lt_of_le h hl; simp at this; omega
  · rw [h.1] at hl; rw [h.2] at hu; simp at hl hu; omega

theorem failed_holds {bot : Cmp} {l u : Ext} {x d : Int} (h : failed bot l u (.fin d) = true)
    (hl : l ≤ .fin x) (hu : .fin x ≤ u) : ¬ bot.holds x d := by
  cases bot <;> simp only [failed, decide_eq_true_eq, Bool.and_eq_true, Bool.or_eq_true] at h <;>
    simp only [Cmp.holds]
  · have := le_trans h hl; simp at this; omega
  · have := lt_of_lt_of_le h hl; simp at this; omega
  · have := le_trans hu h; simp at this; omega
  · have := lt_of_le_of_lt hu h; simp at this; omega
  · rw [h.1] at hl; rw [h.2] at hu; simp at hl hu; omega
  · rcases h with h | h
    · have := lt_of_le_of_lt hu h; simp at this; omega
    · have := lt_of_lt_of_le h hl; simp at this; omega

theorem mem_singleton (x d : Int) : Mem x [⟨.fin d, .fin d⟩] ↔ x = d := by
  simp only [Mem, Range.Mem, List.mem_singleton, exists_eq_left, Ext.fin_le_fin]; omega

theorem normal_singleton (d : Int) : Normal [⟨.fin d, .fin d⟩] := by
  constructor <;> simp

/-- Outcome of a posting function relative to the truth `P` of the comparison. -/
def Right (E : Env) (ρ : Atom → Int) (p : Post) (P : Prop) : Prop :=
  p.holds ρ ↔ (if p.isConst = true ∧ E.doubleNeg = true then ¬ P else P)

theorem assign_right (E : Env) (ρ : Atom → Int) (a : Atom) (d : Int)
    (hn : ∀ a D, E.dom a = some D → Normal D) (hc : Consistent E ρ) (hroot : E.doubleNeg = false) :
    Right E ρ (assign E a d) ((a.eval ρ) = d) := by
  unfold assign Right
  cases hD : E.dom a with
  | none =>
    simp only [Post.holds, Post.isConst, mem_singleton]; simp
  | some D =>
    have hm := hc.2 a D hD
    have hN := hn a D hD
    dsimp only
    split
    · rename_i hcon
      split
      · rename_i heq
        have := (C07_equal D _ hN (normal_singleton d)).1.1 heq
        have := (this (a.eval ρ)).1 hm
        rw [mem_singleton] at this
        simp [Post.holds, Post.isConst, this]
      · simp only [Post.holds, Post.isConst, mem_singleton]; simp
    · rename_i hcon
      have : ¬ Mem d D := fun h => hcon ((C07_contains d D hN).2 h)
      have : a.eval ρ ≠ d := fun h => this (h ▸ hm)
      simp [Post.holds, hroot, this]

theorem normCmp_right {bot b' : Cmp} {a e0 e1 : Atom} {d : Int} (h : normCmp bot a d = .ok (b', e0, e1))
    (ρ : Atom → Int) : b'.holds (e0.eval ρ) (e1.eval ρ) ↔ bot.holds (a.eval ρ) d := by
  cases bot <;> simp only [normCmp, Res.bind_eq_ok, Res.ok.injEq, Prod.mk.injEq] at h
  · obtain ⟨d', h1, rfl, rfl, rfl⟩ := h
    have := (safeMinus_ok h1).1
    simp only [Cmp.holds, Atom.eval]; omega
  · obtain ⟨rfl, rfl, rfl⟩ := h; simp only [Cmp.holds, Atom.eval]
  · obtain ⟨d', h1, rfl, rfl, rfl⟩ := h
    have := (safePlus_ok h1).1
    simp only [Cmp.holds, Atom.eval]; omega
  · obtain ⟨rfl, rfl, rfl⟩ := h; simp only [Cmp.holds, Atom.eval]; try omega
  · obtain ⟨rfl, rfl, rfl⟩ := h; simp only [Cmp.holds, Atom.eval]
  · obtain ⟨rfl, rfl, rfl⟩ := h; simp only [Cmp.holds, Atom.eval]

theorem mem_nil (x : Int) : ¬ Mem x [] := by simp [Mem]

theorem postSingle_right (E : Env) (ρ : Atom → Int) (bot : Cmp) (a : Atom) (d : Int) (p : Post)
    (hn : ∀ a D, E.dom a = some D → Normal D) (hc : Consistent E ρ)
    (hroot : E.root = true → E.doubleNeg = false) (hd : inLL d)
    (h : postSingle E bot a d = .ok p) : Right E ρ p (bot.holds (a.eval ρ) d) := by
  unfold postSingle at h
  split at h
  · rename_i hcond
    simp only [Res.ok.injEq] at h; subst h
    obtain ⟨hr, _, rfl⟩ := hcond
    exact assign_right E ρ a d hn hc (hroot hr)
  · rw [Res.bind_eq_ok] at h
    obtain ⟨⟨b', e0, e1⟩, h1, h⟩ := h
    have hcmp : Right E ρ (.cmp b' e0 e1) (bot.holds (a.eval ρ) d) := by
      unfold Right
      simp only [Post.holds, Post.isConst]
      rw [normCmp_right h1]; simp
    dsimp only at h
    split at h
    · rename_i hcond
      split at h
      · rename_i D hD
        rw [Res.bind_eq_ok] at h
        obtain ⟨nd, h2, h⟩ := h
        have hl := C10_limitDomain bot D nd d (hn a D hD) hd h2
        have hm := hc.2 a D hD
        simp only [Res.ok.injEq] at h; subst h
        unfold Right
        by_cases he : nd = []
        · rw [if_pos he]
          have h3 := hl.2 (a.eval ρ)
          rw [he] at h3
          have : ¬ bot.holds (a.eval ρ) d := fun hb => mem_nil _ (h3.2 ⟨hm, hb⟩)
          simp [Post.holds, hroot hcond.1, this]
        · rw [if_neg he]
          by_cases hq : Ranges.equal D nd = true
          · rw [if_pos hq]
            have h4 := (C07_equal D nd (hn a D hD) hl.1).1.1 hq
            have := (hl.2 (a.eval ρ)).1 ((h4 (a.eval ρ)).1 hm)
            simp [Post.holds, Post.isConst, this.2]
          · rw [if_neg hq]
            simp only [Post.holds, Post.isConst, hl.2]
            simp [hm]
      · simp only [Res.ok.injEq] at h; subst h; exact hcmp
    · simp only [Res.ok.injEq] at h; subst h; exact hcmp

theorem flip_holds (bot : Cmp) (x d : Int) : (flip bot).holds x d ↔ bot.holds (-1 * x + d) 0 := by
  cases bot <;> simp only [flip, Cmp.holds] <;> omega

theorem shift_holds (bot : Cmp) (x d : Int) : bot.holds x (-d) ↔ bot.holds (1 * x + d) 0 := by
  cases bot <;> simp only [Cmp.holds] <;> omega

theorem single_right (E : Env) (ρ : Atom → Int) (bot : Cmp) (c : Int) (a : Atom) (d : Int) (p : Post)
    (hn : ∀ a D, E.dom a = some D → Normal D) (hc : Consistent E ρ)
    (hroot : E.root = true → E.doubleNeg = false) (hd : inLL d) (hc1 : c = 1 ∨ c = -1)
    (h : single E bot c a d = .ok p) : Right E ρ p (bot.holds (c * a.eval ρ + d) 0) := by
  unfold single at h
  rw [Res.bind_eq_ok] at h
  obtain ⟨⟨b', d'⟩, h1, h⟩ := h
  unfold unitForm at h1
  have key : inLL d' ∧ (b'.holds (a.eval ρ) d' ↔ bot.holds (c * a.eval ρ + d) 0) := by
    rcases hc1 with rfl | rfl
    · rw [if_neg (by decide)] at h1
      rw [Res.bind_eq_ok] at h1
      obtain ⟨m, h2, h1⟩ := h1
      simp only [Res.ok.injEq, Prod.mk.injEq] at h1
      obtain ⟨rfl, rfl⟩ := h1
      have := safeMinus_ok h2
      refine ⟨this.2, ?_⟩
      rw [this.1, ← shift_holds]; simp
    · rw [if_pos rfl] at h1
      simp only [Res.ok.injEq, Prod.mk.injEq] at h1
      obtain ⟨rfl, rfl⟩ := h1
      exact ⟨hd, flip_holds bot _ d⟩
  rw [← key.2]
  dsimp only at h
  split at h
  · rename_i l u hb
    obtain ⟨hl, hu⟩ := hc.1 a l u hb
    cases hdn : E.doubleNeg with
    | true =>
      simp only [hdn, if_true] at h
      split at h
      · rename_i hf
        simp only [Res.ok.injEq] at h; subst h
        have := failed_holds hf hl hu
        simp [Right, Post.holds, Post.isConst, hdn, this]
      · split at h
        · rename_i hs
          simp only [Res.ok.injEq] at h; subst h
          have := subsumed_holds hs hl hu
          simp [Right, Post.holds, Post.isConst, hdn, this]
        · exact postSingle_right E ρ b' a d' p hn hc hroot key.1 h
    | false =>
      simp only [hdn, Bool.false_eq_true, if_false] at h
      split at h
      · rename_i hs
        simp only [Res.ok.injEq] at h; subst h
        have := subsumed_holds hs hl hu
        simp [Right, Post.holds, hdn, this]
      · split at h
        · rename_i hf
          simp only [Res.ok.injEq] at h; subst h
          have := failed_holds hf hl hu
          simp [Right, Post.holds, hdn, this]
        · exact postSingle_right E ρ b' a d' p hn hc hroot key.1 h
  · exact postSingle_right E ρ b' a d' p hn hc hroot key.1 h

theorem general_right (E : Env) (ρ : Atom → Int) (bot : Cmp) (tgt : Option Atom)
    (ts : List (Int × Atom)) (d : Int) (p : Post) (h : general E bot tgt ts d = .ok p) :
    Right E ρ p (bot.holds (sum ρ ts + d) 0) := by
  unfold general at h
  simp only [Res.bind_eq_ok] at h
  obtain ⟨⟨nd, f⟩, _, ⟨op, ts', k⟩, h2, h3⟩ := h
  simp only [Res.ok.injEq] at h3; subst h3
  unfold Right
  simp only [Post.holds, Post.isConst]
  rw [C13_builtin bot ts ts' d k op h2 ρ]; simp

theorem cmpZero_holds (bot : Cmp) (d : Int) : cmpZero bot (0 - d) = true ↔ bot.holds (0 + d) 0 := by
  cases bot <;> simp only [cmpZero, Cmp.holds, decide_eq_true_eq] <;> omega

theorem absV_one {c : Int} (h : absV c = .ok 1) : c = 1 ∨ c = -1 := by
  unfold absV at h
  split at h
  · have := (safeMinus_ok h).1; omega
  · simp only [Res.ok.injEq] at h; exact Or.inl h

theorem dispatch_right (E : Env) (ρ : Atom → Int) (bot : Cmp) (tgt : Option Atom)
    (ts : List (Int × Atom)) (d : Int) (p : Post)
    (hn : ∀ a D, E.dom a = some D → Normal D) (hc : Consistent E ρ)
    (hroot : E.root = true → E.doubleNeg = false) (hd : inLL d) (hnz : ∀ t ∈ ts, t.1 ≠ 0)
    (h : dispatch E bot tgt ts d = .ok p) : Right E ρ p (bot.holds (sum ρ ts + d) 0) := by
  unfold dispatch at h
  split at h
  · rw [Res.bind_eq_ok] at h
    obtain ⟨m, h1, h⟩ := h
    simp only [Res.ok.injEq] at h; subst h
    have hm := (safeMinus_ok h1).1
    subst hm
    have hz := cmpZero_holds bot d
    rw [sum_nil]
    unfold Right
    cases hdn : E.doubleNeg with
    | true =>
      simp only [Post.holds, Post.isConst, if_true, and_self, ← hz, Bool.not_eq_true',
        Bool.not_eq_true]
    | false =>
      simp only [Post.holds, Bool.false_eq_true, if_false, and_false]
      exact hz
  · rename_i c a
    rw [Res.bind_eq_ok] at h
    obtain ⟨ac, h1, h⟩ := h
    split at h
    · rename_i hac
      subst hac
      have := single_right E ρ bot c a d p hn hc hroot hd (absV_one h1) h
      rw [sum_cons, sum_nil, add_zero]; exact this
    · exact general_right E ρ bot tgt _ d p h
  · rename_i c0 a0 c1 a1
    split at h
    · rename_i hbot
      rw [Res.bind_eq_ok] at h
      obtain ⟨n, h1, h⟩ := h
      have hn1 := (safeMinus_ok h1).1
      split at h
      · rename_i hcond
        split at h
        · simp only [Res.ok.injEq] at h; subst h
          have hc1 : c1 ≠ 0 := hnz (c1, a1) (by simp)
          have key : Cmp.holds bot (sum ρ [(c0, a0), (c1, a1)] + d) 0 ↔ a0.eval ρ = a1.eval ρ := by
            rw [hbot, hcond.2, sum_cons, sum_cons, sum_nil, hcond.1, hn1]
            simp only [Cmp.holds]
            constructor
            · intro h
              have : c1 * (a1.eval ρ - a0.eval ρ) = 0 := by linarith
              rcases mul_eq_zero.1 this with h | h
              · exact absurd h hc1
              · omega
            · intro h; rw [h]; ring
          unfold Right
          rw [key]
          split <;> simp [Post.holds, Post.isConst, Cmp.holds]
        · simp at h
      · exact general_right E ρ bot tgt _ d p h
    · exact general_right E ρ bot tgt _ d p h
  · exact general_right E ρ bot tgt _ d p h

end Linear
end MZ
