import Verif.Linear.FlattenLemmas
import Verif.Dbl.Lemmas
/-!
# C43, C44: flattening a linear comparison, and division through `double`
-/
namespace MZ
open Linear Domain

/-! ## C43: integer division through doubles -/

theorem Dbl.quot_bound (a b : ℤ) (ha : |a| < 2 ^ 53) (hb0 : b ≠ 0) :
    -2 ^ 53 < (a : ℚ) / b ∧ (a : ℚ) / b < 2 ^ 53 := by
  have h1 : |(a : ℚ) / b| < 2 ^ 53 := by
    have hb1 : (1 : ℚ) ≤ |(b : ℚ)| := by exact_mod_cast Int.one_le_abs hb0
    have ha' : |(a:ℚ)| < 2 ^ 53 := by
      rw [← Int.cast_abs, show (2:ℚ) ^ 53 = ((2 ^ 53 : ℤ) : ℚ) by norm_num]
      exact_mod_cast ha
    rw [abs_div]
    exact lt_of_le_of_lt (div_le_self (abs_nonneg _) hb1) ha'
  exact abs_lt.1 h1

/-- For operands below 2^53 in magnitude, dividing through `double` and rounding down is the exact
rounded-down quotient. -/
theorem C43_floorDiv_partial (a b : ℤ) (ha : |a| < 2 ^ 53) (hb : |b| < 2 ^ 53) (hb0 : b ≠ 0) :
    Dbl.floorDiv a b = .ok ⌊(a : ℚ) / b⌋ := by
  unfold Dbl.floorDiv Dbl.div Dbl.ofInt
  rw [if_neg hb0, Dbl.rnd_int a ha, Dbl.rnd_int b hb, Dbl.floor_rnd a b ha hb0]
  apply ll_ok
  obtain ⟨h1, h2⟩ := Dbl.quot_bound a b ha hb0
  have h3 : (-2 ^ 53 : ℤ) ≤ ⌊(a : ℚ) / b⌋ := Int.le_floor.2 (by push_cast; exact h1.le)
  have h4 : ⌊(a : ℚ) / b⌋ < (2 ^ 53 : ℤ) := Int.floor_lt.2 (by push_cast; exact h2)
  rw [inLL_iff]; omega

/-- The same for rounding up. -/
theorem C43_ceilDiv_partial (a b : ℤ) (ha : |a| < 2 ^ 53) (hb : |b| < 2 ^ 53) (hb0 : b ≠ 0) :
    Dbl.ceilDiv a b = .ok ⌈(a : ℚ) / b⌉ := by
  unfold Dbl.ceilDiv Dbl.div Dbl.ofInt
  rw [if_neg hb0, Dbl.rnd_int a ha, Dbl.rnd_int b hb, Dbl.ceil_rnd a b ha hb0]
  apply ll_ok
  obtain ⟨h1, h2⟩ := Dbl.quot_bound a b ha hb0
  have h3 : (-2 ^ 53 : ℤ) < ⌈(a : ℚ) / b⌉ := Int.lt_ceil.2 (by push_cast; exact h1)
  have h4 : ⌈(a : ℚ) / b⌉ ≤ (2 ^ 53 : ℤ) := Int.ceil_le.2 (by push_cast; exact h2.le)
  rw [inLL_iff]; omega

theorem Dbl.rnd_2_53_1 : Dbl.rnd ((9007199254740993 : ℤ) : ℚ) = 9007199254740992 := by
  have hlog : Int.log 2 |((9007199254740993 : ℤ) : ℚ)| = 53 := by
    have h1 : (0:ℚ) < |((9007199254740993 : ℤ) : ℚ)| := by norm_num
    have h2 := (Int.lt_zpow_iff_log_lt (b := 2) (x := 54) (by norm_num) h1).1 (by norm_num)
    have h3 := (Int.zpow_le_iff_le_log (b := 2) (x := 53) (by norm_num) h1).1 (by norm_num)
    omega
  have hu : Dbl.ulp ((9007199254740993 : ℤ) : ℚ) = 2 := by
    unfold Dbl.ulp; rw [hlog]; norm_num
  unfold Dbl.rnd
  rw [if_neg (by norm_num), hu]
  have hf : ⌊((9007199254740993 : ℤ) : ℚ) / 2⌋ = 4503599627370496 := by
    rw [Int.floor_eq_iff]; norm_num
  have hr : Dbl.rne (((9007199254740993 : ℤ) : ℚ) / 2) = 4503599627370496 := by
    unfold Dbl.rne
    rw [hf, if_neg (by norm_num), if_neg (by norm_num), if_pos (by norm_num)]
  rw [hr]; norm_num

theorem Dbl.rnd_2_53 : Dbl.rnd (9007199254740992 : ℚ) = 9007199254740992 := by
  have hlog : Int.log 2 |(9007199254740992 : ℚ)| = 53 := by
    have h1 : (0:ℚ) < |(9007199254740992 : ℚ)| := by norm_num
    have h2 := (Int.lt_zpow_iff_log_lt (b := 2) (x := 54) (by norm_num) h1).1 (by norm_num)
    have h3 := (Int.zpow_le_iff_le_log (b := 2) (x := 53) (by norm_num) h1).1 (by norm_num)
    omega
  have hu : Dbl.ulp (9007199254740992 : ℚ) = 2 := by
    unfold Dbl.ulp; rw [hlog]; norm_num
  unfold Dbl.rnd
  rw [if_neg (by norm_num), hu,
    show (9007199254740992 : ℚ) / 2 = ((4503599627370496 : ℤ) : ℚ) by norm_num, Dbl.rne_int]
  norm_num

/-- Beyond 2^53 it is not: `(2^53 + 1) / 1` rounded up comes out as `2^53`. -/
theorem C43_ceilDiv_wrong : Dbl.ceilDiv 9007199254740993 1 = .ok 9007199254740992 := by
  unfold Dbl.ceilDiv Dbl.div Dbl.ofInt
  rw [if_neg (by norm_num), Dbl.rnd_2_53_1, Dbl.rnd_int 1 (by norm_num), Int.cast_one, div_one,
    Dbl.rnd_2_53, show (9007199254740992 : ℚ) = ((9007199254740992 : ℤ) : ℚ) by norm_num,
    Int.ceil_intCast]
  decide

/-- Likewise `-(2^53 + 1) / -1` rounded down. -/
theorem C43_floorDiv_wrong : Dbl.floorDiv (-9007199254740993) (-1) = .ok 9007199254740992 := by
  unfold Dbl.floorDiv Dbl.div Dbl.ofInt
  rw [if_neg (by norm_num), Int.cast_neg, Dbl.rnd_neg, Dbl.rnd_2_53_1, Dbl.rnd_int (-1) (by norm_num),
    Int.cast_neg, Int.cast_one, div_neg, div_one, neg_neg,
    Dbl.rnd_2_53, show (9007199254740992 : ℚ) = ((9007199254740992 : ℤ) : ℚ) by norm_num,
    Int.floor_intCast]
  decide

example : Dbl.floorDiv (-7) 2 = .ok (-4) := by
  rw [C43_floorDiv_partial _ _ (by norm_num) (by norm_num) (by norm_num)]; norm_num

/-! ## C44: flattening a linear comparison -/

theorem Linear.infCheck_holds {E : Env} {bot : Cmp} {le0 le1 : Side} {b : Bool} {x y : Ext}
    {ρ : Atom → Int} (h : infCheck E bot le0 le1 = some b) (hx : le0.val ρ = some x)
    (hy : le1.val ρ = some y) (hfin : (∃ k, x = .fin k) ∨ (∃ k, y = .fin k)) :
    b = true ↔ holdsE bot x y := by
  -- an infinite constant denotes one of the infinities
  have hinf : ∀ (v : IntVal) (z : Ext), v.isFinite = false → v.denote = some z →
      (v.isPlusInfinity = true ∧ v.isMinusInfinity = false ∧ z = .posInf) ∨
      (v.isPlusInfinity = false ∧ v.isMinusInfinity = true ∧ z = .negInf) := by
    intro v z h1 h2
    have hvi : v.inf = true := by simpa [IntVal.isFinite] using h1
    simp only [IntVal.denote, hvi, if_true] at h2
    simp only [IntVal.isPlusInfinity, IntVal.isMinusInfinity, hvi, Bool.true_and]
    split at h2
    · rename_i h3; left; simp [h3] at h2 ⊢; exact h2.symm
    · split at h2
      · rename_i h3; right; simp [h3] at h2 ⊢; exact h2.symm
      · simp at h2
  have left : ∀ v, le0 = .const v → v.isFinite = false → b = infLeft bot v →
      (b = true ↔ holdsE bot x y) := by
    intro v hv hf hb
    subst hv hb
    rcases hinf v x hf hx with ⟨h1, h2, rfl⟩ | ⟨h1, h2, rfl⟩
    · obtain ⟨k, hk⟩ | ⟨k, rfl⟩ := hfin
      · exact absurd hk (by simp)
      · cases bot <;> simp [infLeft, holdsE, h1, h2]
    · obtain ⟨k, hk⟩ | ⟨k, rfl⟩ := hfin
      · exact absurd hk (by simp)
      · cases bot <;> simp [infLeft, holdsE, h1, h2]
  have right : ∀ v, le1 = .const v → v.isFinite = false → b = infRight bot v →
      (b = true ↔ holdsE bot x y) := by
    intro v hv hf hb
    subst hv hb
    rcases hinf v y hf hy with ⟨h1, h2, rfl⟩ | ⟨h1, h2, rfl⟩
    · obtain ⟨k, rfl⟩ | ⟨k, hk⟩ := hfin
      · cases bot <;> simp [infRight, holdsE, h1, h2]
      · exact absurd hk (by simp)
    · obtain ⟨k, rfl⟩ | ⟨k, hk⟩ := hfin
      · cases bot <;> simp [infRight, holdsE, h1, h2]
      · exact absurd hk (by simp)
  unfold infCheck at h
  split at h
  · simp at h
  · split at h
    · rename_i v
      split at h
      · simp at h
      · rename_i hf
        exact left _ rfl (by simpa using hf) (by simpa using h.symm)
    · rename_i v _
      split at h
      · simp at h
      · rename_i hf
        exact right _ rfl (by simpa using hf) (by simpa using h.symm)
    · simp at h

/-- Flattening `le0 bot le1` yields a constraint that holds for exactly the same assignments,
among those respecting the known bounds and domains (for a Boolean constant in a doubly negated
context, its complement). At most one side is an infinity. The root context is never doubly
negated: negating a context turns `C_ROOT` into `C_NEG` (lib/flatten.cpp 254–267). -/
theorem C44_flatten (E : Env) (sorter : List (Int × Atom) → List Nat)
    (hsort : ∀ ts, SortedIdx ts (sorter ts)) (bot : Cmp) (le0 le1 : Side) (p : Post)
    (hn : ∀ a D, E.dom a = some D → Normal D) (hroot : E.root = true → E.doubleNeg = false)
    (h : flattenLin E sorter bot le0 le1 = .ok p) (ρ : Atom → Int) (hc : Consistent E ρ) (x y : Ext)
    (hx : le0.val ρ = some x) (hy : le1.val ρ = some y)
    (hfin : (∃ k, x = .fin k) ∨ (∃ k, y = .fin k)) :
    p.holds ρ ↔
      (if p.isConst = true ∧ E.doubleNeg = true then ¬ holdsE bot x y else holdsE bot x y) := by
  unfold flattenLin at h
  split at h
  · rename_i b hb
    simp only [Res.ok.injEq] at h; subst h
    have key : b = true ↔ holdsE bot x y := infCheck_holds hb hx hy hfin
    cases hdn : E.doubleNeg with
    | true =>
      simp only [Post.holds, Post.isConst, if_true, and_self, ← key, Bool.not_eq_true',
        Bool.not_eq_true]
    | false =>
      simp only [Post.holds, Bool.false_eq_true, if_false, and_false]
      exact key
  · simp only [Res.bind_eq_ok] at h
    obtain ⟨⟨t0, d0⟩, h0, ⟨t1, d1⟩, h1, ⟨t2, d2⟩, h2, h3⟩ := h
    obtain ⟨l0, k0, rfl, e0⟩ := collect_ok h0 (by decide) ρ hx
    obtain ⟨l1, k1, rfl, e1⟩ := collect_ok h1 l0 ρ hy
    have hv := C12_value _ _ _ _ _ (hsort _) h2 ρ
    have hnorm := C12_normal _ _ _ _ _ (hsort _) h2
    have hr := dispatch_right E ρ bot _ t2 d2 p hn hc hroot (simplify_inLL l1 h2) hnorm.1 h3
    unfold Right at hr
    have hval : sum ρ t2 + d2 = k0 - k1 := by
      rw [hv]; dsimp only at e0 e1 ⊢; rw [e1, e0, sum_nil]; ring
    rw [hval] at hr
    have hh : bot.holds (k0 - k1) 0 ↔ holdsE bot (.fin k0) (.fin k1) := by
      cases bot <;> simp only [Cmp.holds, holdsE, Ext.fin_lt_fin, Ext.fin_le_fin, ne_eq,
        Ext.fin.injEq] <;> omega
    rw [hr]
    split <;> rw [hh]

/-- Two-sided bounds of a linear expression without the assigned variable. -/
theorem Linear.sumBounds_ok (E : Env) (ρ : Atom → Int) (t : Atom) (hc : Consistent E ρ) :
    ∀ (ts : List (Int × Atom)) (l u rc l' u' rc' : Int), (ts.map Prod.snd).Nodup →
      sumBounds E t ts l u rc = .ok (some (l', u', rc')) →
      ∃ o, (∀ s, l ≤ s → s ≤ u → l' ≤ s + o ∧ s + o ≤ u') ∧
        ((t ∉ ts.map Prod.snd ∧ rc' = rc ∧ sum ρ ts = o) ∨
          (t ∈ ts.map Prod.snd ∧ sum ρ ts = o + rc' * t.eval ρ)) := by
  intro ts
  induction ts with
  | nil =>
    intro l u rc l' u' rc' _ h
    simp only [sumBounds, Res.ok.injEq, Option.some.injEq, Prod.mk.injEq] at h
    obtain ⟨rfl, rfl, rfl⟩ := h
    exact ⟨0, fun s h1 h2 => by omega, Or.inl ⟨by simp, rfl, rfl⟩⟩
  | cons q ts ih =>
    intro l u rc l' u' rc' hnd h
    obtain ⟨c, a⟩ := q
    simp only [List.map_cons, List.nodup_cons] at hnd
    rw [sumBounds] at h
    split at h
    · rename_i hat
      subst hat
      obtain ⟨o, h1, h2⟩ := ih _ _ _ _ _ _ hnd.2 h
      refine ⟨o, h1, Or.inr ⟨by simp, ?_⟩⟩
      rcases h2 with ⟨_, rfl, h3⟩ | ⟨h3, _⟩
      · rw [sum_cons, h3]; ring
      · exact absurd h3 hnd.1
    · rename_i hat
      split at h
      · rename_i bl bu hb
        obtain ⟨hl, hu⟩ := hc.1 a _ _ hb
        simp only [Ext.fin_le_fin] at hl hu
        have step : ∀ (la ua : Int), (∀ s, l ≤ s → s ≤ u → la ≤ s + c * a.eval ρ ∧ s + c * a.eval ρ ≤ ua) →
            sumBounds E t ts la ua rc = .ok (some (l', u', rc')) →
            ∃ o, (∀ s, l ≤ s → s ≤ u → l' ≤ s + o ∧ s + o ≤ u') ∧
              ((t ∉ List.map Prod.snd ((c, a) :: ts) ∧ rc' = rc ∧ sum ρ ((c, a) :: ts) = o) ∨
                (t ∈ List.map Prod.snd ((c, a) :: ts) ∧ sum ρ ((c, a) :: ts) = o + rc' * t.eval ρ)) := by
          intro la ua hs hh
          obtain ⟨o, h1, h2⟩ := ih _ _ _ _ _ _ hnd.2 hh
          refine ⟨c * a.eval ρ + o, fun s s1 s2 => ?_, ?_⟩
          · have := hs s s1 s2
            have := h1 _ this.1 this.2
            rw [← add_assoc]; exact this
          · rw [sum_cons]
            rcases h2 with ⟨h3, h4, h5⟩ | ⟨h6, h3⟩
            · refine Or.inl ⟨?_, h4, by rw [h5]⟩
              simp only [List.map_cons, List.mem_cons, not_or]
              exact ⟨Ne.symm hat, h3⟩
            · exact Or.inr ⟨by simp only [List.map_cons, List.mem_cons]; exact Or.inr h6, by rw [h3]; ring⟩
        split at h
        · rename_i hcp
          simp only [Res.bind_eq_ok] at h
          obtain ⟨l1, e1, u1, e2, h⟩ := h
          refine step l1 u1 (fun s s1 s2 => ?_) h
          rw [addMul_ok e1, addMul_ok e2]
          have := mul_le_mul_of_nonneg_left hl (show 0 ≤ c by omega)
          have := mul_le_mul_of_nonneg_left hu (show 0 ≤ c by omega)
          omega
        · rename_i hcp
          simp only [Res.bind_eq_ok] at h
          obtain ⟨l1, e1, u1, e2, h⟩ := h
          refine step l1 u1 (fun s s1 s2 => ?_) h
          rw [addMul_ok e1, addMul_ok e2]
          have := mul_le_mul_of_nonpos_left hl (show c ≤ 0 by omega)
          have := mul_le_mul_of_nonpos_left hu (show c ≤ 0 by omega)
          omega
      · simp at h

/-- Largest magnitude of the known finite bounds of an operand (at least 1). -/
def Linear.boundMag (E : Env) (a : Atom) : Int :=
  match E.bounds a with
  | some (.fin l, .fin u) => max 1 (max |l| |u|)
  | _ => 1

theorem Linear.sumBounds_small (E : Env) (t : Atom) :
    ∀ (ts : List (Int × Atom)) (l u rc l' u' rc' : Int),
      sumBounds E t ts l u rc = .ok (some (l', u', rc')) →
      |l'| ≤ |l| + (ts.map (fun q => |q.1| * boundMag E q.2)).sum ∧
      |u'| ≤ |u| + (ts.map (fun q => |q.1| * boundMag E q.2)).sum ∧
      |rc'| ≤ |rc| + (ts.map (fun q => |q.1| * boundMag E q.2)).sum := by
  intro ts
  have hpos : ∀ a, 1 ≤ boundMag E a := by
    intro a; unfold boundMag; split <;> simp
  have hsum : ∀ ts : List (Int × Atom), 0 ≤ (ts.map (fun q => |q.1| * boundMag E q.2)).sum := by
    intro ts
    apply List.sum_nonneg
    intro z hz
    rw [List.mem_map] at hz
    obtain ⟨q, _, rfl⟩ := hz
    have := hpos q.2
    exact mul_nonneg (abs_nonneg _) (by omega)
  induction ts with
  | nil =>
    intro l u rc l' u' rc' h
    simp only [sumBounds, Res.ok.injEq, Option.some.injEq, Prod.mk.injEq] at h
    obtain ⟨rfl, rfl, rfl⟩ := h; simp
  | cons q ts ih =>
    intro l u rc l' u' rc' h
    obtain ⟨c, a⟩ := q
    rw [List.map_cons, List.sum_cons]
    dsimp only
    have hp := hpos a
    have hcn := abs_nonneg c
    have hca : |c| ≤ |c| * boundMag E a := by nlinarith
    rw [sumBounds] at h
    split at h
    · obtain ⟨h1, h2, h3⟩ := ih _ _ _ _ _ _ h
      have := abs_nonneg rc
      omega
    · split at h
      · rename_i bl bu hb
        have hm : boundMag E a = max 1 (max |bl| |bu|) := by unfold boundMag; rw [hb]
        have h1 : |c * bl| ≤ |c| * boundMag E a := by
          rw [abs_mul, hm]
          exact mul_le_mul_of_nonneg_left (le_trans (le_max_left _ _) (le_max_right _ _)) hcn
        have h2 : |c * bu| ≤ |c| * boundMag E a := by
          rw [abs_mul, hm]
          exact mul_le_mul_of_nonneg_left (le_trans (le_max_right _ _) (le_max_right _ _)) hcn
        have a1 := abs_add_le l (c * bl)
        have a2 := abs_add_le u (c * bu)
        have a3 := abs_add_le l (c * bu)
        have a4 := abs_add_le u (c * bl)
        have n1 := hsum ts
        split at h <;> simp only [Res.bind_eq_ok] at h <;> obtain ⟨l1, e1, u1, e2, h⟩ := h <;>
          obtain ⟨h3, h4, h5⟩ := ih _ _ _ _ _ _ h <;>
          rw [addMul_ok e1] at h3 <;> rw [addMul_ok e2] at h4 <;>
          refine ⟨by omega, by omega, by omega⟩
      · simp at h

theorem Linear.divBounds_ok {l u rc l' u' x : Int} (hl : |l| < 2 ^ 53) (hu : |u| < 2 ^ 53)
    (hrc : |rc| < 2 ^ 53) (h0 : rc ≠ 0) (h : divBounds l u rc = .ok (l', u'))
    (h1 : l ≤ -rc * x) (h2 : -rc * x ≤ u) : l' ≤ x ∧ x ≤ u' := by
  unfold divBounds at h
  rw [Res.bind_eq_ok] at h
  obtain ⟨m, hm, h⟩ := h
  have hm := (safeMinus_ok hm).1
  rw [zero_sub] at hm
  have hm0 : m ≠ 0 := by omega
  have hmm : |m| < 2 ^ 53 := by rw [hm, abs_neg]; exact hrc
  rw [← hm] at h1 h2
  have h1q : (l : ℚ) ≤ m * x := by exact_mod_cast h1
  have h2q : (m : ℚ) * x ≤ u := by exact_mod_cast h2
  split at h
  · rename_i hneg
    have hmp : (0 : ℚ) < m := by exact_mod_cast (by omega : 0 < m)
    rw [C43_floorDiv_partial l m hl hmm hm0, Res.ok_bind, C43_ceilDiv_partial u m hu hmm hm0,
      Res.ok_bind] at h
    simp only [Res.ok.injEq, Prod.mk.injEq] at h
    obtain ⟨rfl, rfl⟩ := h
    constructor
    · have : (⌊(l : ℚ) / m⌋ : ℚ) ≤ x :=
        le_trans (Int.floor_le _) (by rw [div_le_iff₀ hmp]; linarith)
      exact_mod_cast this
    · have : (x : ℚ) ≤ ⌈(u : ℚ) / m⌉ :=
        le_trans (by rw [le_div_iff₀ hmp]; linarith) (Int.le_ceil _)
      exact_mod_cast this
  · rename_i hneg
    have hmp : (m : ℚ) < 0 := by exact_mod_cast (by omega : m < 0)
    rw [C43_ceilDiv_partial u m hu hmm hm0, Res.ok_bind, C43_floorDiv_partial l m hl hmm hm0,
      Res.ok_bind] at h
    simp only [Res.ok.injEq, Prod.mk.injEq] at h
    obtain ⟨rfl, rfl⟩ := h
    constructor
    · rw [Int.ceil_le, div_le_iff_of_neg hmp]; linarith
    · rw [Int.le_floor, le_div_iff_of_neg hmp]; linarith

theorem Linear.hull_of_mem {D : List Range} (hN : Normal D) {x : Int} (hm : Mem x D) :
    ∃ a b, IntSet.min? D = some a ∧ IntSet.max? D = some b ∧ a ≤ .fin x ∧ .fin x ≤ b := by
  obtain ⟨r, hr, hr1, hr2⟩ := hm
  cases D with
  | nil => simp at hr
  | cons q D =>
    refine ⟨q.lo, (List.getLast (q :: D) (by simp)).hi, by simp [IntSet.min?],
      by rw [IntSet.max?, List.getLast?_eq_some_getLast (by simp)]; rfl, ?_, ?_⟩
    · rw [List.mem_cons] at hr
      rcases hr with rfl | hr
      · exact hr1
      · have h1 := (List.pairwise_cons.1 hN.2).1 r hr
        have h2 := (hN.1 q (by simp)).1
        have h3 : q.hi ≤ q.hi.succ := by cases q.hi <;> simp
        exact le_trans (le_trans h2 (le_trans h3 h1.le)) hr1
    · refine le_trans hr2 ?_
      rcases List.eq_nil_or_concat' (q :: D) with h | ⟨L, z, h⟩
      · simp at h
      · have hlast : (q :: D).getLast (by simp) = z := by simp [h]
        rw [hlast]
        rw [h] at hr hN
        rw [List.mem_append] at hr
        rcases hr with hr | hr
        · have h1 := (List.pairwise_append.1 hN.2).2.2 r hr z (by simp)
          have h2 := (hN.1 z (by simp)).1
          have h3 : r.hi ≤ r.hi.succ := by cases r.hi <;> simp
          exact le_trans h3 (le_trans h1.le h2)
        · simp at hr; rw [hr]

theorem Linear.assignDomain_ok (E : Env) (ρ : Atom → Int) (t : Atom) (l u : Int)
    (hn : ∀ a D, E.dom a = some D → Normal D) (hc : Consistent E ρ) (h1 : l ≤ t.eval ρ)
    (h2 : t.eval ρ ≤ u) :
    (assignDomain E t l u).2 = false ∧
      ∀ a D, (assignDomain E t l u).1 = some (a, D) → Mem (a.eval ρ) D := by
  unfold assignDomain
  cases hD : E.dom t with
  | none =>
    refine ⟨rfl, fun a D h => ?_⟩
    simp only [Option.some.injEq, Prod.mk.injEq] at h
    obtain ⟨rfl, rfl⟩ := h
    exact ((C05_of_bounds (.fin l) (.fin u) (by simp) (by simp)).2 _).2 ⟨h1, h2⟩
  | some D =>
    have hm := hc.2 t D hD
    have hN := hn t D hD
    have hi : domainIntersects D (.fin l) (.fin u) = true := by
      obtain ⟨a, b, ha, hb, h3, h4⟩ := hull_of_mem hN hm
      unfold domainIntersects
      rw [ha, hb]
      have e1 : a ≤ .fin u := le_trans h3 h2
      have e2 : (.fin l : Ext) ≤ b := le_trans h1 h4
      simp [e1, e2]
    dsimp only
    rw [if_pos hi]
    split
    · exact ⟨rfl, by simp⟩
    · refine ⟨rfl, fun a D' h => ?_⟩
      simp only [Option.some.injEq, Prod.mk.injEq] at h
      obtain ⟨rfl, rfl⟩ := h
      exact ((C10_intersectInterval D _ _ hN (by simp) (by simp)).2 _).2 ⟨hm, h1, h2⟩

/-- The domain change for `x = linear expression` in root context removes no solution and never
reports failure for a satisfiable constraint, provided coefficients, bounds and constant stay below
2^53 in total (full claim, false: without the last hypothesis, see
`C44_tightening_loses_solution`). -/
theorem C44_tightening_partial (E : Env) (ρ : Atom → Int) (tgt : Option Atom)
    (ts : List (Int × Atom)) (d : Int) (nd : Option (Atom × List Range)) (failed : Bool)
    (hn : ∀ a D, E.dom a = some D → Normal D) (hc : Consistent E ρ)
    (hnd : (ts.map Prod.snd).Nodup)
    (hsmall : |d| + (ts.map (fun q => |q.1| * boundMag E q.2)).sum < 2 ^ 53)
    (h : tighten E tgt ts d = .ok (nd, failed)) (hsol : sum ρ ts + d = 0) :
    failed = false ∧ ∀ a D, nd = some (a, D) → Mem (a.eval ρ) D := by
  unfold tighten at h
  cases tgt with
  | none =>
    simp only [Res.ok.injEq, Prod.mk.injEq] at h
    obtain ⟨rfl, rfl⟩ := h; simp
  | some t =>
    simp only [Res.bind_eq_ok] at h
    obtain ⟨r, h1, h⟩ := h
    split at h
    · simp only [Res.ok.injEq, Prod.mk.injEq] at h
      obtain ⟨rfl, rfl⟩ := h; simp
    · rename_i l u rc
      split at h
      · simp only [Res.ok.injEq, Prod.mk.injEq] at h
        obtain ⟨rfl, rfl⟩ := h; simp
      · rename_i hrc
        rw [Res.bind_eq_ok] at h
        obtain ⟨⟨l', u'⟩, h2, h⟩ := h
        simp only [Res.ok.injEq] at h
        have hrev : sum ρ ts.reverse = sum ρ ts := by
          unfold sum; rw [List.map_reverse, List.sum_reverse]
        have hrev2 : (ts.reverse.map (fun q => |q.1| * boundMag E q.2)).sum =
            (ts.map (fun q => |q.1| * boundMag E q.2)).sum := by
          rw [List.map_reverse, List.sum_reverse]
        obtain ⟨o, h3, h4⟩ := sumBounds_ok E ρ t hc _ _ _ _ _ _ _
          (by rw [List.map_reverse]; exact List.nodup_reverse.2 hnd) h1
        obtain ⟨s1, s2, s3⟩ := sumBounds_small E t _ _ _ _ _ _ _ h1
        rw [hrev2] at s1 s2 s3
        rw [hrev] at h4
        have hrc0 : |(0 : Int)| = 0 := abs_zero
        have hd0 := abs_nonneg d
        obtain ⟨h5, h6⟩ := h3 d (le_refl _) (le_refl _)
        rcases h4 with ⟨_, h7, _⟩ | ⟨_, h7⟩
        · exact absurd h7 hrc
        · have hx := divBounds_ok (x := t.eval ρ) (by omega) (by omega) (by omega) hrc h2
            (by linarith) (by linarith)
          have := assignDomain_ok E ρ t l' u' hn hc hx.1 hx.2
          rw [h] at this
          exact this

/-- Environment of the examples: `x0` without bounds, `x1 ∈ 0..2^53`, `x2 ∈ 0..1`, root context. -/
def Linear.exEnv : Env where
  bounds a := if a = .id 1 then some (.fin 0, .fin 9007199254740992)
    else if a = .id 2 then some (.fin 0, .fin 1) else none
  dom _ := none
  isId _ := true
  rev _ := false
  hasRhs _ := false
  root := true
  rTrue := true
  doubleNeg := false

/-- `constraint x0 = x1 + x2` with `x1 ∈ 0..2^53` and `x2 ∈ 0..1`: the domain given to `x0` ends at
`2^53`, although `x0 = 2^53 + 1` belongs to a solution. -/
theorem C44_tightening_loses_solution :
    ∃ (ρ : Atom → Int) (p : Post), Consistent exEnv ρ ∧
      SortedIdx [(1, .id 0), (-1, .id 1), (-1, .id 2)] [0, 1, 2] ∧
      flattenLin exEnv (fun _ => [0, 1, 2]) .eq (.atom (.id 0)) (.lin [(1, .id 1), (1, .id 2)] 0) = .ok p ∧
      ρ (.id 0) = ρ (.id 1) + ρ (.id 2) ∧ p.holds ρ ∧ ¬ p.survives ρ := by
  refine ⟨fun a => if a = .id 0 then 9007199254740993 else if a = .id 1 then 9007199254740992 else 1,
    .lin .eq [(1, .id 0), (-1, .id 1), (-1, .id 2)] 0
      (some (.id 0, [⟨.fin 0, .fin 9007199254740992⟩])) false, ?_, ⟨by decide, by decide⟩, ?_, ?_, ?_, ?_⟩
  · constructor
    · intro a l u h
      simp only [exEnv] at h
      split at h
      · rename_i ha; subst ha
        simp only [Option.some.injEq, Prod.mk.injEq] at h
        obtain ⟨rfl, rfl⟩ := h; decide
      · split at h
        · rename_i ha; subst ha
          simp only [Option.some.injEq, Prod.mk.injEq] at h
          obtain ⟨rfl, rfl⟩ := h; decide
        · simp at h
    · intro a D h; simp [exEnv] at h
  · have h1 : collect 1 (.atom (.id 0)) [] 0 = .ok ([(1, .id 0)], 0) := by decide
    have h2 : collect (-1) (.lin [(1, .id 1), (1, .id 2)] 0) [(1, .id 0)] 0 =
        .ok ([(1, .id 0), (-1, .id 1), (-1, .id 2)], 0) := by decide
    have h3 : simplifyLinIdx [0, 1, 2] [(1, .id 0), (-1, .id 1), (-1, .id 2)] 0 =
        .ok ([(1, .id 0), (-1, .id 1), (-1, .id 2)], 0) := by decide
    have h4 : sumBounds exEnv (.id 0) [(-1, .id 2), (-1, .id 1), (1, .id 0)] 0 0 0 =
        .ok (some (-9007199254740993, 0, 1)) := by decide
    have h5 : divBounds (-9007199254740993) 0 1 = .ok (0, 9007199254740992) := by
      unfold divBounds
      rw [show safeMinus 0 1 = .ok (-1) by decide, Res.ok_bind, if_neg (by decide),
        C43_ceilDiv_partial 0 (-1) (by norm_num) (by norm_num) (by norm_num), Res.ok_bind,
        C43_floorDiv_wrong]
      simp
    have h6 : tighten exEnv (some (.id 0)) [(1, .id 0), (-1, .id 1), (-1, .id 2)] 0 =
        .ok (some (.id 0, [⟨.fin 0, .fin 9007199254740992⟩]), false) := by
      unfold tighten
      dsimp only
      rw [show [(1, Atom.id 0), ((-1 : Int), Atom.id 1), (-1, Atom.id 2)].reverse =
        [(-1, .id 2), (-1, .id 1), (1, .id 0)] by rfl, h4, Res.ok_bind]
      dsimp only
      rw [if_neg (by decide), h5, Res.ok_bind]
      rfl
    unfold flattenLin
    rw [show infCheck exEnv .eq (.atom (.id 0)) (.lin [(1, .id 1), (1, .id 2)] 0) = none by rfl]
    dsimp only
    rw [h1, Res.ok_bind]
    dsimp only
    rw [h2, Res.ok_bind]
    dsimp only
    rw [h3, Res.ok_bind]
    show general exEnv .eq (some (.id 0)) _ _ = _
    unfold general
    rw [h6]
    rfl
  · decide
  · show sum _ _ = _
    decide
  · rintro ⟨_, h⟩
    have := h (.id 0) _ rfl
    rw [show ([⟨.fin 0, .fin 9007199254740992⟩] : List Range) = IntSet.ofBounds (.fin 0) (.fin 9007199254740992) by rfl,
      (C05_of_bounds _ _ (by simp) (by simp)).2] at this
    exact absurd this (by decide)

/-- The hypotheses of `C44_flatten` and `C44_tightening_partial` are met by ordinary comparisons:
`2·x1 + x2 < x1 + 7`, not at root. -/
example : flattenLin { exEnv with root := false } (fun _ => [0, 2, 1]) .le
    (.lin [(2, .id 1), (1, .id 2)] 0) (.lin [(1, .id 1)] 7) =
    .ok (.lin .le [(1, .id 1), (1, .id 2)] 6 none false) := by decide

/-- `7 ≥ x1 + 0·x2` in root context becomes a binary comparison. -/
example : flattenLin exEnv (fun _ => [0, 1]) .gq (.const (.fin 7)) (.lin [(1, .id 1), (0, .id 2)] 0) =
    .ok (.cmp .lq (.id 1) (.lit 7)) := by decide

end MZ
