import Verif.IntVal.Spec
import Mathlib.Tactic.Linarith
import Mathlib.Tactic.Ring
import Mathlib.Tactic.NormNum
/-!
# Properties of `IntVal` (C01–C04)
-/
namespace MZ
open IntVal

/-! ## helper facts -/

theorem ll_ok {x : Int} (h : inLL x) : ll x = .ok x := by unfold ll; rw [if_pos h]

theorem ll_eq_ok {x y : Int} (h : ll x = .ok y) : y = x ∧ inLL x := by
  unfold ll at h; split at h
  · simp only [Res.ok.injEq] at h; exact ⟨h.symm, by assumption⟩
  · simp at h

theorem inLL_iff {x : Int} :
    inLL x ↔ -9223372036854775808 ≤ x ∧ x ≤ 9223372036854775807 := Iff.rfl

theorem magLL_iff {x : Int} :
    magLL x ↔ -9223372036854775807 ≤ x ∧ x ≤ 9223372036854775807 := Iff.rfl

theorem LMIN_eq : LMIN = -9223372036854775808 := rfl
theorem LMAX_eq : LMAX = 9223372036854775807 := rfl

theorem safePlus_eq {x y : Int} (hx : inLL x) (hy : inLL y) :
    safePlus x y = if inLL (x + y) then .ok (x + y) else .err := by
  unfold safePlus
  rw [inLL_iff] at hx hy
  by_cases h : x < 0
  · rw [if_pos h, ll_ok (by rw [inLL_iff, LMIN_eq]; omega), Res.ok_bind]
    by_cases h2 : inLL (x + y)
    · rw [if_pos h2, ll_ok h2, if_neg]; rw [inLL_iff] at h2; rw [LMIN_eq]; omega
    · rw [if_neg h2, if_pos]; rw [inLL_iff] at h2; rw [LMIN_eq]; omega
  · rw [if_neg h, ll_ok (by rw [inLL_iff, LMAX_eq]; omega), Res.ok_bind]
    by_cases h2 : inLL (x + y)
    · rw [if_pos h2, ll_ok h2, if_neg]; rw [inLL_iff] at h2; rw [LMAX_eq]; omega
    · rw [if_neg h2, if_pos]; rw [inLL_iff] at h2; rw [LMAX_eq]; omega

theorem safeMinus_eq {x y : Int} (hx : inLL x) (hy : inLL y) :
    safeMinus x y = if inLL (x - y) then .ok (x - y) else .err := by
  unfold safeMinus
  rw [inLL_iff] at hx hy
  by_cases h : x < 0
  · rw [if_pos h, ll_ok (by rw [inLL_iff, LMIN_eq]; omega), Res.ok_bind]
    by_cases h2 : inLL (x - y)
    · rw [if_pos h2, ll_ok h2, if_neg]; rw [inLL_iff] at h2; rw [LMIN_eq]; omega
    · rw [if_neg h2, if_pos]; rw [inLL_iff] at h2; rw [LMIN_eq]; omega
  · rw [if_neg h, ll_ok (by rw [inLL_iff, LMAX_eq]; omega), Res.ok_bind]
    by_cases h2 : inLL (x - y)
    · rw [if_pos h2, ll_ok h2, if_neg]; rw [inLL_iff] at h2; rw [LMAX_eq]; omega
    · rw [if_neg h2, if_pos]; rw [inLL_iff] at h2; rw [LMAX_eq]; omega

theorem abs_mul_le_iff {x y : Int} (hy : y ≠ 0) :
    (x.natAbs : Int) ≤ LMAX / (y.natAbs : Int) ↔ magLL (x * y) := by
  have hy' : (0 : Int) < (y.natAbs : Int) := by omega
  rw [Int.le_ediv_iff_mul_le hy', ← Int.natCast_mul, ← Int.natAbs_mul]
  unfold magLL LMAX; omega

theorem safeMult_eq {x y : Int} (hx : inLL x) (hy : inLL y) :
    safeMult x y = if y = 0 then .ok 0 else if x = LMIN ∨ y = LMIN then .ub
      else if magLL (x * y) then .ok (x * y) else .err := by
  unfold safeMult
  by_cases hy0 : y = 0
  · simp [hy0]
  simp only [hy0, if_false]
  have habs : ∀ z, inLL z → absLL z = if z = LMIN then .ub else .ok (z.natAbs : Int) := by
    intro z hz
    rw [inLL_iff] at hz
    unfold absLL
    by_cases h : z < 0
    · rw [if_pos h]
      by_cases h2 : z = LMIN
      · rw [if_pos h2]; subst h2; decide
      · rw [if_neg h2, ll_ok (by rw [inLL_iff]; rw [LMIN_eq] at h2; omega)]; congr 1; omega
    · rw [if_neg h, if_neg (by rw [LMIN_eq]; omega)]; congr 1; omega
  rw [habs x hx, habs y hy]
  by_cases hxm : x = LMIN
  · simp only [hxm, if_true, Res.ub_bind, true_or]
  by_cases hym : y = LMIN
  · simp only [hxm, hym, if_true, if_false, Res.ub_bind, Res.ok_bind, or_true]
  simp only [Res.ok_bind, hxm, hym, or_self, if_false]
  have hiff := abs_mul_le_iff (x := x) hy0
  by_cases hle : (x.natAbs : Int) ≤ LMAX / (y.natAbs : Int)
  · have h2 := hiff.1 hle
    rw [if_neg (by omega), if_pos h2]
    apply ll_ok
    unfold inLL magLL LMIN LMAX at *
    omega
  · have h2 : ¬ magLL (x * y) := fun h => hle (hiff.2 h)
    rw [if_pos (by omega), if_neg h2]

theorem tdiv_inLL {x y : Int} (hx : inLL x) (_hy0 : y ≠ 0) (h : ¬ (x = LMIN ∧ y = -1)) :
    inLL (x.tdiv y) := by
  have habs : (x.tdiv y).natAbs ≤ x.natAbs := by
    rw [Int.natAbs_tdiv]; exact Nat.div_le_self _ _
  unfold inLL LMIN LMAX at *
  by_cases hxm : x = -9223372036854775808
  · subst hxm
    by_cases hy1 : y = 1
    · subst hy1; decide
    · have hy2 : 2 ≤ y.natAbs := by
        have : y ≠ -1 := fun h' => h ⟨rfl, h'⟩
        omega
      have : ((-9223372036854775808 : Int).tdiv y).natAbs ≤ 4611686018427387904 := by
        rw [Int.natAbs_tdiv]
        calc (-9223372036854775808 : Int).natAbs / y.natAbs
            ≤ (-9223372036854775808 : Int).natAbs / 2 := Nat.div_le_div_left hy2 (by decide)
          _ = 4611686018427387904 := by decide
      omega
  · omega

theorem safeDiv_eq {x y : Int} (hx : inLL x) :
    safeDiv x y = if y = 0 then .err else if x = LMIN ∧ y = -1 then .err else .ok (x.tdiv y) := by
  unfold safeDiv
  split
  · rfl
  rename_i hy
  by_cases hx0 : x = 0
  · subst hx0
    have : ¬ ((0 : Int) = LMIN ∧ y = -1) := by unfold LMIN; omega
    simp [this]
  simp only [hx0, if_false]
  split
  · rfl
  · exact ll_ok (tdiv_inLL hx hy (by assumption))

theorem safeMod_eq {x y : Int} (hx : inLL x) :
    safeMod x y = if y = 0 then .err else .ok (x.tmod y) := by
  unfold safeMod
  split
  · rfl
  rename_i hy
  split
  · rename_i h; subst h
    congr 1; symm; exact Int.tmod_eq_zero_of_dvd (by simp)
  · rename_i h
    rw [ll_ok (tdiv_inLL hx hy (fun h' => h h'.2))]; rfl

/-! ## C01 – finite arithmetic is exact or an error -/

/-- Addition of finite integers: the exact sum if it fits, otherwise an error. -/
theorem C01_add {a b : Int} (ha : inLL a) (hb : inLL b) :
    IntVal.add (fin a) (fin b) = if inLL (a + b) then .ok (fin (a + b)) else .err := by
  have hpath : IntVal.add (fin a) (fin b) = fin <$> safePlus a b := rfl
  rw [hpath, safePlus_eq ha hb]
  split <;> rfl

theorem C01_sub {a b : Int} (ha : inLL a) (hb : inLL b) :
    IntVal.sub (fin a) (fin b) = if inLL (a - b) then .ok (fin (a - b)) else .err := by
  have hpath : IntVal.sub (fin a) (fin b) = fin <$> safeMinus a b := rfl
  rw [hpath, safeMinus_eq ha hb]
  split <;> rfl

theorem C01_neg {a : Int} (ha : inLL a) :
    IntVal.neg (fin a) = if inLL (-a) then .ok (fin (-a)) else .err := by
  simp only [IntVal.neg, fin, safeMinus_eq (x := 0) (by decide) ha, Int.zero_sub]
  split <;> rfl

theorem C01_incr {a : Int} (ha : inLL a) :
    IntVal.incr (fin a) = if inLL (a + 1) then .ok (fin (a + 1)) else .err := by
  have hpath : IntVal.incr (fin a) = fin <$> safePlus a 1 := rfl
  rw [hpath, safePlus_eq ha (show inLL 1 by decide)]
  split <;> rfl

theorem C01_decr {a : Int} (ha : inLL a) :
    IntVal.decr (fin a) = if inLL (a - 1) then .ok (fin (a - 1)) else .err := by
  have hpath : IntVal.decr (fin a) = fin <$> safeMinus a 1 := rfl
  rw [hpath, safeMinus_eq ha (show inLL 1 by decide)]
  split <;> rfl

/-- Multiplication, complete description: an operand `LLONG_MIN` makes the C++ code
evaluate `0 - LLONG_MIN`, which is undefined; otherwise the exact product is returned
when its magnitude is at most `LLONG_MAX`, and an error is raised when it is not. -/
theorem C01_mul {a b : Int} (ha : inLL a) (hb : inLL b) :
    IntVal.mul (fin a) (fin b) =
      if b = 0 then .ok (fin 0) else if a = LMIN ∨ b = LMIN then .ub
      else if magLL (a * b) then .ok (fin (a * b)) else .err := by
  have hpath : IntVal.mul (fin a) (fin b) = fin <$> safeMult a b := rfl
  rw [hpath, safeMult_eq ha hb]
  by_cases h1 : b = 0
  · simp [h1]
  by_cases h2 : a = LMIN ∨ b = LMIN
  · simp [h1, h2]
  by_cases h3 : magLL (a * b)
  · simp [h1, h2, h3]
  · simp [h1, h2, h3]

/-- Division (truncating), complete description. Dividing by `±1` takes the
multiplication path, so `LLONG_MIN / ±1` is undefined behaviour in the code. -/
theorem C01_div {a b : Int} (ha : inLL a) (hb : inLL b) :
    IntVal.div (fin a) (fin b) =
      if b = 0 then .err else if a = LMIN ∧ (b = 1 ∨ b = -1) then .ub
      else .ok (fin (a.tdiv b)) := by
  by_cases h1 : b = 1 ∨ b = -1
  · have h0 : b ≠ 0 := by omega
    have hm : b ≠ LMIN := by unfold LMIN; omega
    have hpath : IntVal.div (fin a) (fin b) = fin <$> safeMult a b := by
      simp only [IntVal.div, fin, isFinite]
      rcases h1 with h | h <;> subst h <;> simp <;> rfl
    rw [hpath, safeMult_eq ha hb]
    simp only [h0, if_false, hm, or_false, h1, and_true]
    by_cases hx : a = LMIN
    · simp [hx]
    · have hle : magLL (a * b) := by
        rcases h1 with h | h <;> subst h <;> unfold magLL inLL LMIN LMAX at * <;> omega
      simp only [hx, if_false, hle, if_true, Res.ok_map]
      congr 2
      rcases h1 with h | h <;> subst h
      · simp
      · simp
  · have hpath : IntVal.div (fin a) (fin b) = fin <$> safeDiv a b := by
      simp only [IntVal.div, fin, isFinite]
      have h2 : (b == 1 || b == -1) = false := by
        simp; constructor <;> (intro h; exact h1 (by omega))
      simp [h2]
    rw [hpath, safeDiv_eq ha]
    by_cases hb0 : b = 0
    · simp [hb0]
    · have : ¬ (a = LMIN ∧ b = -1) := fun h => h1 (Or.inr h.2)
      simp [hb0, this, h1]

/-- Remainder: exact (C++ sign convention) or a division-by-zero error, never undefined. -/
theorem C01_mod {a b : Int} (ha : inLL a) (_hb : inLL b) :
    IntVal.mod (fin a) (fin b) = if b = 0 then .err else .ok (fin (a.tmod b)) := by
  have hpath : IntVal.mod (fin a) (fin b) = fin <$> safeMod a b := rfl
  rw [hpath, safeMod_eq ha]
  split <;> rfl

/-- The binary operators of property C01 and their exact mathematical value
(`none`: mathematically undefined). -/
inductive ArithOp | add | sub | mul | div | mod
deriving DecidableEq, Repr

def ArithOp.code : ArithOp → IntVal → IntVal → Res IntVal
  | add => IntVal.add | sub => IntVal.sub | mul => IntVal.mul
  | div => IntVal.div | mod => IntVal.mod

def ArithOp.math : ArithOp → Int → Int → Option Int
  | add, a, b => some (a + b)
  | sub, a, b => some (a - b)
  | mul, a, b => some (a * b)
  | div, a, b => if b = 0 then none else some (a.tdiv b)
  | mod, a, b => if b = 0 then none else some (a.tmod b)

/-- **C01 (no wrong number).** Whatever the operands, a result that is returned is finite,
fits in 64 bits and is the exact mathematical result. No exclusions. -/
theorem C01_result_exact (op : ArithOp) {a b : Int} (ha : inLL a) (hb : inLL b) {r : IntVal}
    (h : op.code (fin a) (fin b) = .ok r) :
    r.inf = false ∧ inLL r.v ∧ op.math a b = some r.v := by
  cases op <;> simp only [ArithOp.code, ArithOp.math] at h ⊢
  · rw [C01_add ha hb] at h; split at h
    · simp only [Res.ok.injEq] at h; subst h; exact ⟨rfl, by assumption, rfl⟩
    · simp at h
  · rw [C01_sub ha hb] at h; split at h
    · simp only [Res.ok.injEq] at h; subst h; exact ⟨rfl, by assumption, rfl⟩
    · simp at h
  · rw [C01_mul ha hb] at h
    split at h
    · rename_i hb0; simp only [Res.ok.injEq] at h; subst h; subst hb0
      exact ⟨rfl, by unfold fin; decide, by simp [fin]⟩
    · split at h
      · simp at h
      · split at h
        · simp only [Res.ok.injEq] at h; subst h
          refine ⟨rfl, ?_, rfl⟩
          unfold magLL inLL LMIN LMAX fin at *; dsimp only; omega
        · simp at h
  · rw [C01_div ha hb] at h
    split at h
    · simp at h
    · split at h
      · simp at h
      · simp only [Res.ok.injEq] at h; subst h
        refine ⟨rfl, tdiv_inLL ha (by assumption) ?_, by simp [fin, *]⟩
        intro h'; rename_i h2; exact h2 ⟨h'.1, Or.inr h'.2⟩
  · rw [C01_mod ha hb] at h
    split at h
    · simp at h
    · simp only [Res.ok.injEq] at h; subst h
      refine ⟨rfl, ?_, by simp [fin, *]⟩
      have := Int.natAbs_tmod a b
      have h2 : a.natAbs % b.natAbs ≤ a.natAbs := Nat.mod_le _ _
      have h3 : a.natAbs % b.natAbs < b.natAbs := Nat.mod_lt _ (by omega)
      unfold inLL LMIN LMAX fin at *; dsimp only; omega

/-- **C01 (exact or error), partial.** With no operand equal to `LLONG_MIN` the outcome is
never undefined, and an error is raised only if the mathematical result is undefined or
does not fit (for `*`: is not of magnitude at most `LLONG_MAX`).
Missing for the full property: operands equal to `LLONG_MIN`, see `C01_min_ub`. -/
theorem C01_exact_or_error_partial (op : ArithOp) {a b : Int} (ha : inLL a) (hb : inLL b)
    (ha' : a ≠ LMIN) (hb' : b ≠ LMIN) :
    op.code (fin a) (fin b) ≠ .ub ∧
    (op.code (fin a) (fin b) = .err →
      ∀ z, op.math a b = some z → ¬ magLL z) := by
  cases op <;> simp only [ArithOp.code, ArithOp.math]
  · rw [C01_add ha hb]; split
    · simp
    · simp only [Option.some.injEq, forall_eq']
      refine ⟨by simp, fun _ => ?_⟩
      unfold magLL inLL LMIN LMAX at *; omega
  · rw [C01_sub ha hb]; split
    · simp
    · simp only [Option.some.injEq, forall_eq']
      refine ⟨by simp, fun _ => ?_⟩
      unfold magLL inLL LMIN LMAX at *; omega
  · rw [C01_mul ha hb]
    by_cases hb0 : b = 0
    · simp [hb0]
    · simp only [hb0, ha', hb', if_false, or_self]
      by_cases h3 : magLL (a * b)
      · simp [h3]
      · simp only [h3, if_false]; refine ⟨by simp, fun _ z hz => ?_⟩
        simp only [Option.some.injEq] at hz; subst hz
        exact h3
  · rw [C01_div ha hb]
    by_cases hb0 : b = 0
    · simp [hb0]
    · simp [hb0, ha']
  · rw [C01_mod ha hb]
    by_cases hb0 : b = 0
    · simp [hb0]
    · simp [hb0]

/-- The full property is false of the code: `LLONG_MIN * 1` and `LLONG_MIN / 1` are
mathematically representable but the code's overflow test itself overflows. -/
theorem C01_min_ub :
    IntVal.mul (fin LMIN) (fin 1) = .ub ∧ IntVal.mul (fin 1) (fin LMIN) = .ub ∧
    IntVal.div (fin LMIN) (fin 1) = .ub := by decide

/-- … and multiplication rejects products equal to `LLONG_MIN` although they fit. -/
theorem C01_mul_rejects_min :
    IntVal.mul (fin 4611686018427387904) (fin (-2)) = .err ∧
    inLL (4611686018427387904 * (-2)) := by decide

/-- Division and remainder fit together: `a = b * (a div b) + a mod b`, the remainder is
smaller than the divisor and has the sign of the dividend. -/
theorem C01_div_mod {a b : Int} (ha : inLL a) (hb : inLL b) {q r : IntVal}
    (hq : IntVal.div (fin a) (fin b) = .ok q) (hr : IntVal.mod (fin a) (fin b) = .ok r) :
    a = b * q.v + r.v ∧ r.v.natAbs < b.natAbs ∧ (r.v = 0 ∨ (r.v < 0 ↔ a < 0)) := by
  rw [C01_div ha hb] at hq
  rw [C01_mod ha hb] at hr
  by_cases hb0 : b = 0
  · simp [hb0] at hq
  simp only [hb0, if_false] at hq hr
  split at hq
  · simp at hq
  · simp only [Res.ok.injEq] at hq hr
    subst hq; subst hr
    refine ⟨?_, ?_, ?_⟩
    · have := Int.tmod_add_mul_tdiv a b
      simp only [fin]; omega
    · simp only [fin, Int.natAbs_tmod]; exact Nat.mod_lt _ (by omega)
    · simp only [fin]
      rcases Int.lt_or_le a 0 with h | h
      · have : a.tmod b ≤ 0 := by
          have h1 := Int.neg_tmod (-a) b
          rw [Int.neg_neg] at h1
          have h2 := Int.tmod_nonneg b (show 0 ≤ -a by omega)
          omega
        omega
      · have := Int.tmod_nonneg b h
        omega

-- the hypotheses are met, with every outcome
example : inLL 7 ∧ inLL (-2) ∧ IntVal.div (fin 7) (fin (-2)) = .ok (fin (-3)) ∧
    IntVal.mod (fin 7) (fin (-2)) = .ok (fin 1) ∧ IntVal.add (fin LMAX) (fin 1) = .err ∧
    IntVal.sub (fin LMIN) (fin (-1)) = .ok (fin (LMIN + 1)) ∧
    IntVal.mul (fin 3037000500) (fin 3037000500) = .err := by decide

/-! ## C02 – infinities -/

/-- `+` and `-` refuse infinite operands. -/
theorem C02_add_sub {x y : IntVal} (h : x.inf = true ∨ y.inf = true) :
    IntVal.add x y = .err ∧ IntVal.sub x y = .err ∧ IntVal.mod x y = .err := by
  rcases h with h | h <;> simp [IntVal.add, IntVal.sub, IntVal.mod, isFinite, h]

/-- Unary minus is negation in the extended integers. -/
theorem C02_neg {x : IntVal} (hx : x.WF) {e : Ext} (he : x.denote = some e) :
    (∃ r, IntVal.neg x = .ok r ∧ r.WF ∧ r.denote = some e.neg) ∨
      (IntVal.neg x = .err ∧ x = fin LMIN) := by
  obtain ⟨v, inf⟩ := x
  cases inf
  · simp only [denote] at he
    simp at he; subst he
    have := C01_neg (a := v) hx.1
    simp only [fin] at this
    rw [this]
    by_cases h : inLL (-v)
    · left; simp only [h, and_self, if_true]; exact ⟨_, rfl, ⟨h, by simp [denote]⟩, by simp [denote, Ext.neg]⟩
    · right; rw [if_neg h]; refine ⟨rfl, ?_⟩
      have := hx.1
      simp only [fin, IntVal.mk.injEq, and_true]
      unfold inLL LMIN LMAX at *; dsimp only at *; omega
  · left
    simp only [denote, if_true] at he
    split at he
    · rename_i hv; subst hv; simp at he; subst he
      refine ⟨⟨-1, true⟩, by decide, ⟨by decide, by decide⟩, by decide⟩
    · split at he
      · rename_i hv; subst hv; simp at he; subst he
        refine ⟨⟨1, true⟩, by decide, ⟨by decide, by decide⟩, by decide⟩
      · simp at he

/-- The infinity-safe `plus`/`minus` leave infinities alone and are exact otherwise. -/
theorem C02_plus_minus {x : IntVal} (hx : x.WF) {k : Int} (hk : inLL k) {r : IntVal} :
    (IntVal.plus x k = .ok r → r.WF ∧ ∃ e, x.denote = some e ∧
      r.denote = Ext.add e (.fin k)) ∧
    (IntVal.minus x k = .ok r → r.WF ∧ ∃ e, x.denote = some e ∧
      r.denote = Ext.add e (.fin (-k))) := by
  obtain ⟨v, inf⟩ := x
  cases inf
  · simp only [IntVal.plus, IntVal.minus, isFinite, Bool.not_false, if_true,
      safePlus_eq hx.1 hk, safeMinus_eq hx.1 hk]
    constructor
    · intro h; split at h
      · simp only [Res.ok_map, Res.ok.injEq] at h; subst h
        exact ⟨⟨by assumption, by simp [denote, fin]⟩, .fin v, by simp [denote], by simp [denote, fin, Ext.add]⟩
      · simp at h
    · intro h; split at h
      · simp only [Res.ok_map, Res.ok.injEq] at h; subst h
        exact ⟨⟨by assumption, by simp [denote, fin]⟩, .fin v, by simp [denote], by simp [denote, fin, Ext.add]; omega⟩
      · simp at h
  · have hv : v = 1 ∨ v = -1 := by
      have := hx.2; simp only [denote, if_true] at this
      by_contra hc; apply this; rw [if_neg (by omega), if_neg (by omega)]
    simp only [IntVal.plus, IntVal.minus, isFinite, Bool.not_true, Bool.false_eq_true, if_false, Res.ok.injEq]
    constructor <;> (rintro rfl; refine ⟨hx, ?_⟩; rcases hv with h | h <;> subst h <;> simp [denote, Ext.add])

/-- Multiplication with an infinite **left** operand, and division of an infinity, follow
the extended integers (or raise an error). -/
theorem C02_mul_left_inf {x y : IntVal} (hx : x.WF) (hy : y.WF) (hinf : x.inf = true)
    {e f : Ext} (he : x.denote = some e) (hf : y.denote = some f) :
    (∀ r, IntVal.mul x y = .ok r → r.WF ∧ r.denote = Ext.mul e f) ∧
    (∀ r, IntVal.div x y = .ok r → r.WF ∧ r.denote = Ext.mul e f) ∧
    IntVal.mul x y ≠ .ub ∧ IntVal.div x y ≠ .ub := by
  obtain ⟨v, inf⟩ := x
  obtain ⟨w, inf'⟩ := y
  simp only at hinf; subst hinf
  have hv : v = 1 ∨ v = -1 := by
    have := hx.2; simp only [denote, if_true] at this
    by_contra hc; apply this; rw [if_neg (by omega), if_neg (by omega)]
  cases inf'
  · by_cases hw : w = 1 ∨ w = -1
    · rcases hv with hv | hv <;> rcases hw with hw | hw <;> subst hv <;> subst hw <;>
        (simp [denote] at he hf; subst he; subst hf; refine ⟨?_, ?_, by decide, by decide⟩ <;>
          (intro r hr; 
           first
           | (have h2 : r = ⟨1, true⟩ := by
                simpa [show IntVal.mul ⟨1,true⟩ ⟨1,false⟩ = .ok ⟨1,true⟩ by decide,
                  show IntVal.div ⟨1,true⟩ ⟨1,false⟩ = .ok ⟨1,true⟩ by decide,
                  show IntVal.mul ⟨-1,true⟩ ⟨-1,false⟩ = .ok ⟨1,true⟩ by decide,
                  show IntVal.div ⟨-1,true⟩ ⟨-1,false⟩ = .ok ⟨1,true⟩ by decide] using hr.symm
              subst h2; exact ⟨⟨by decide, by decide⟩, by decide⟩)
           | (have h2 : r = ⟨-1, true⟩ := by
                simpa [show IntVal.mul ⟨-1,true⟩ ⟨1,false⟩ = .ok ⟨-1,true⟩ by decide,
                  show IntVal.div ⟨-1,true⟩ ⟨1,false⟩ = .ok ⟨-1,true⟩ by decide,
                  show IntVal.mul ⟨1,true⟩ ⟨-1,false⟩ = .ok ⟨-1,true⟩ by decide,
                  show IntVal.div ⟨1,true⟩ ⟨-1,false⟩ = .ok ⟨-1,true⟩ by decide] using hr.symm
              subst h2; exact ⟨⟨by decide, by decide⟩, by decide⟩)))
    · have h1 : IntVal.mul ⟨v, true⟩ ⟨w, false⟩ = .err := by
        simp [IntVal.mul, isFinite]; omega
      have h2 : IntVal.div ⟨v, true⟩ ⟨w, false⟩ = .err := by
        simp [IntVal.div, isFinite]; omega
      simp [h1, h2]
  · have h1 : IntVal.mul ⟨v, true⟩ ⟨w, true⟩ = .err := by
      simp [IntVal.mul, isFinite]
    have h2 : IntVal.div ⟨v, true⟩ ⟨w, true⟩ = .err := by
      simp [IntVal.div, isFinite]
    simp [h1, h2]

/-- **C02 is false of the code for a finite left and an infinite right operand**: the guard
tests the wrong operand (`y._v` instead of `x._v`), so `5 * ∞` is a value which is
flagged infinite but is neither `+∞` nor `-∞`, and `0 * ∞`, undefined in the extended
integers, is accepted. The corrupt value is incomparable with every finite number. -/
theorem C02_mul_right_inf_false :
    (fin 5).WF ∧ infinity.WF ∧ IntVal.mul (fin 5) infinity = .ok ⟨5, true⟩ ∧
    (⟨5, true⟩ : IntVal).denote = none ∧
    IntVal.mul (fin 0) infinity = .ok ⟨0, true⟩ ∧
    (∀ k, IntVal.le ⟨5, true⟩ (fin k) = false ∧ IntVal.le (fin k) ⟨5, true⟩ = false) := by
  refine ⟨⟨by decide, by decide⟩, ⟨by decide, by decide⟩, by decide, by decide, by decide, ?_⟩
  intro k; simp [le, fin, isPlusInfinity, isMinusInfinity, isFinite]

/-- C02 for multiplication, right operand infinite, partial: correct when the finite left
operand is `1` or `-1`. Missing: every other finite left operand, for which the code is
wrong (`C02_mul_right_inf_false`). -/
theorem C02_mul_right_inf_partial {a w : Int} (ha : a = 1 ∨ a = -1) (hw : w = 1 ∨ w = -1) :
    ∃ r f, IntVal.mul (fin a) ⟨w, true⟩ = .ok r ∧ r.WF ∧ (⟨w, true⟩ : IntVal).denote = some f ∧
      r.denote = Ext.mul (.fin a) f := by
  rcases ha with h | h <;> rcases hw with h' | h' <;> subst h <;> subst h'
  · exact ⟨⟨1, true⟩, .posInf, by decide, ⟨by decide, by decide⟩, by decide, by decide⟩
  · exact ⟨⟨-1, true⟩, .negInf, by decide, ⟨by decide, by decide⟩, by decide, by decide⟩
  · exact ⟨⟨-1, true⟩, .posInf, by decide, ⟨by decide, by decide⟩, by decide, by decide⟩
  · exact ⟨⟨1, true⟩, .negInf, by decide, ⟨by decide, by decide⟩, by decide, by decide⟩

/-- For every finite left operand of magnitude at least two the product with `+∞` is a
malformed value: no finite factor other than `±1` is handled correctly. -/
theorem C02_mul_right_inf_never {a : Int} (ha : inLL a) (h1 : a ≠ 1) (h2 : a ≠ -1)
    (h3 : a ≠ LMIN) : ∃ r, IntVal.mul (fin a) infinity = .ok r ∧ r.denote = none := by
  refine ⟨⟨a, true⟩, ?_, by simp [denote, h1, h2]⟩
  have hle : magLL (a * 1) := by rw [inLL_iff] at ha; rw [LMIN_eq] at h3; rw [magLL_iff]; omega
  have hpath : IntVal.mul (fin a) infinity = (fun r => ⟨r, true⟩) <$> safeMult a 1 := rfl
  rw [hpath, safeMult_eq ha (show inLL 1 by decide), if_neg (by decide), if_neg, if_pos hle]
  · simp
  · rintro (h | h)
    · exact h3 h
    · revert h; decide

/-- `abs` in the extended integers. -/
theorem C02_abs {x : IntVal} (hx : x.WF) {e : Ext} (he : x.denote = some e) :
    (∃ r, IntVal.abs x = .ok r ∧ r.WF ∧ r.denote = some e.abs) ∨
      (IntVal.abs x = .err ∧ x = fin LMIN) := by
  obtain ⟨v, inf⟩ := x
  cases inf
  · simp [denote] at he; subst he
    have hlt : IntVal.lt ⟨v, false⟩ (fin 0) = decide (v < 0) := by
      unfold IntVal.lt fin isPlusInfinity isMinusInfinity isFinite; simp
    simp only [IntVal.abs, isFinite, Bool.not_false, Bool.not_true, Bool.false_eq_true, if_false, hlt, decide_eq_true_eq]
    by_cases hv : v < 0
    · simp only [hv, if_true]
      have := C01_neg (a := v) hx.1
      simp only [fin] at this
      rw [this]
      by_cases h : inLL (-v)
      · left; rw [if_pos h]
        refine ⟨_, rfl, ⟨h, by simp [denote]⟩, ?_⟩
        simp only [denote, Ext.abs, Bool.false_eq_true, if_false, Option.some.injEq, Ext.fin.injEq]; omega
      · right; rw [if_neg h]; refine ⟨rfl, ?_⟩
        have := hx.1
        simp only [fin, IntVal.mk.injEq, and_true]
        unfold inLL LMIN LMAX at *; dsimp only at *; omega
    · left; simp only [hv, if_false]
      refine ⟨_, rfl, hx, ?_⟩
      simp only [denote, Ext.abs, Bool.false_eq_true, if_false, Option.some.injEq, Ext.fin.injEq]; omega
  · left
    have h : e = .posInf ∨ e = .negInf := by
      simp only [denote, if_true] at he
      split at he
      · simp at he; exact Or.inl he.symm
      · split at he
        · simp at he; exact Or.inr he.symm
        · simp at he
    refine ⟨infinity, by simp [IntVal.abs, isFinite], ⟨by decide, by decide⟩, ?_⟩
    rcases h with h | h <;> subst h <;> decide

example : (fin (-7)).WF ∧ infinity.WF ∧ IntVal.neg infinity = .ok ⟨-1, true⟩ ∧
    IntVal.plus infinity 3 = .ok infinity ∧ IntVal.mul infinity (fin (-1)) = .ok ⟨-1, true⟩ :=
  ⟨⟨by decide, by decide⟩, ⟨by decide, by decide⟩, by decide, by decide, by decide⟩

/-! ## C03 – one total order -/

theorem denote_cases {x : IntVal} {e : Ext} (h : x.denote = some e) :
    (x = ⟨1, true⟩ ∧ e = .posInf) ∨ (x = ⟨-1, true⟩ ∧ e = .negInf) ∨ (∃ a, x = fin a ∧ e = .fin a) := by
  obtain ⟨v, inf⟩ := x
  cases inf
  · simp [denote] at h; subst h; right; right; exact ⟨v, rfl, rfl⟩
  · simp only [denote, if_true] at h
    split at h
    · rename_i hv; subst hv; simp at h; left; exact ⟨rfl, h.symm⟩
    · split at h
      · rename_i hv; subst hv; simp at h; right; left; exact ⟨rfl, h.symm⟩
      · simp at h

/-- `x <= y`, `x < y`, `x >= y`, `x > y`, `x == y`, `x != y` are the comparisons of the
extended integers the operands stand for. -/
theorem C03_compare {x y : IntVal} {e f : Ext} (he : x.denote = some e) (hf : y.denote = some f) :
    (IntVal.le x y = true ↔ Ext.le e f) ∧ (IntVal.lt x y = true ↔ Ext.lt e f) ∧
    (IntVal.ge x y = true ↔ Ext.le f e) ∧ (IntVal.gt x y = true ↔ Ext.lt f e) ∧
    (IntVal.eqb x y = true ↔ e = f) ∧ (IntVal.neb x y = true ↔ e ≠ f) := by
  rcases denote_cases he with ⟨rfl, rfl⟩ | ⟨rfl, rfl⟩ | ⟨a, rfl, rfl⟩ <;>
  rcases denote_cases hf with ⟨rfl, rfl⟩ | ⟨rfl, rfl⟩ | ⟨b, rfl, rfl⟩ <;>
  first
  | (have h1 : ∀ a b : Int, IntVal.le (fin a) (fin b) = decide (a ≤ b) := fun _ _ => rfl
     have h2 : ∀ a b : Int, IntVal.lt (fin a) (fin b) = decide (a < b) := fun _ _ => rfl
     simp only [IntVal.ge, IntVal.gt, IntVal.eqb, IntVal.neb, h1, h2, Ext.le, Ext.lt,
       decide_eq_true_eq]
     simp [fin]; omega)
  | simp [IntVal.le, IntVal.lt, IntVal.ge, IntVal.gt, IntVal.eqb, IntVal.neb, isPlusInfinity,
      isMinusInfinity, isFinite, fin, Ext.le, Ext.lt]

/-- The order of the extended integers is total, transitive and antisymmetric. -/
theorem Ext.le_total_order :
    (∀ a b : Ext, Ext.le a b ∨ Ext.le b a) ∧
    (∀ a b c : Ext, Ext.le a b → Ext.le b c → Ext.le a c) ∧
    (∀ a b : Ext, Ext.le a b → Ext.le b a → a = b) := by
  refine ⟨?_, ?_, ?_⟩
  · rintro (_ | a | _) (_ | b | _) <;> simp [Ext.le]; omega
  · rintro (_ | a | _) (_ | b | _) (_ | c | _) <;> simp [Ext.le]; omega
  · rintro (_ | a | _) (_ | b | _) <;> simp [Ext.le]; omega

/-- The infinities are the ends of the order. -/
theorem C03_ends {x : IntVal} {e : Ext} (he : x.denote = some e) :
    IntVal.le x infinity = true ∧ IntVal.le ⟨-1, true⟩ x = true ∧
    (x.inf = false → IntVal.lt x infinity = true ∧ IntVal.lt ⟨-1, true⟩ x = true) := by
  rcases denote_cases he with ⟨rfl, rfl⟩ | ⟨rfl, rfl⟩ | ⟨a, rfl, rfl⟩ <;>
    simp [IntVal.le, IntVal.lt, infinity, isPlusInfinity, isMinusInfinity, fin, isFinite]

/-- `std::min`/`std::max` return the minimum and maximum. -/
theorem C03_min_max {x y : IntVal} {e f : Ext} (he : x.denote = some e) (hf : y.denote = some f) :
    ∃ m M, (IntVal.min x y).denote = some m ∧ (IntVal.max x y).denote = some M ∧
      (m = e ∨ m = f) ∧ Ext.le m e ∧ Ext.le m f ∧ (M = e ∨ M = f) ∧ Ext.le e M ∧ Ext.le f M := by
  have h1 := (C03_compare hf he).2.1
  have h2 := (C03_compare he hf).2.1
  obtain ⟨tot, -, -⟩ := Ext.le_total_order
  have hrefl : ∀ a : Ext, Ext.le a a := fun a => (tot a a).elim id id
  by_cases c1 : IntVal.lt y x = true
  · have c1' := h1.1 c1
    have c2 : ¬ IntVal.lt x y = true := fun h =>
      (h2.1 h).2 (Ext.le_total_order.2.2 _ _ (h2.1 h).1 c1'.1)
    exact ⟨f, e, by simp [IntVal.min, c1, hf], by simp [IntVal.max, c2, he], Or.inr rfl, c1'.1,
      hrefl _, Or.inl rfl, hrefl _, c1'.1⟩
  · have hef : Ext.le e f := by
      rcases tot e f with h | h
      · exact h
      · by_cases heq : f = e
        · subst heq; exact hrefl _
        · exact absurd (h1.2 ⟨h, heq⟩) c1
    by_cases c2 : IntVal.lt x y = true
    · exact ⟨e, f, by simp [IntVal.min, c1, he], by simp [IntVal.max, c2, hf], Or.inl rfl, hrefl _,
        hef, Or.inr rfl, hef, hrefl _⟩
    · have hfe : Ext.le f e := by
        rcases tot e f with h | h
        · by_cases heq : e = f
          · subst heq; exact hrefl _
          · exact absurd (h2.2 ⟨h, heq⟩) c2
        · exact h
      exact ⟨e, e, by simp [IntVal.min, c1, he], by simp [IntVal.max, c2, he], Or.inl rfl, hrefl _,
        hef, Or.inl rfl, hrefl _, hfe⟩

example : IntVal.denote (fin 3) = some (.fin 3) ∧ infinity.denote = some .posInf ∧
    IntVal.lt (fin 3) infinity = true ∧ IntVal.min infinity (fin 3) = fin 3 := by decide

/-! ## C04 – powers -/

theorem powLoop_ok {b : Int} (hb : inLL b) : ∀ (n : Nat) (i : Int) (r : Int) (z : IntVal),
    inLL r → powLoop (fin b) n i (fin r) = .ok z → z = fin (r * b ^ n) ∧ inLL (r * b ^ n) := by
  intro n
  induction n with
  | zero =>
    intro i r z hr h
    simp [powLoop] at h
    simp [← h, hr]
  | succ n ih =>
    intro i r z hr h
    have hm : mulAssign (fin r) (fin b) = fin <$> safeMult r b := by
      simp [mulAssign, fin, isFinite]; rfl
    simp only [powLoop, hm, safeMult_eq hr hb] at h
    have key : ∀ p, inLL p → p = r * b →
        ((if i = INTMAX then Res.ub else powLoop (fin b) n (i+1) (fin p)) = .ok z) →
        z = fin (r * b ^ (n+1)) ∧ inLL (r * b ^ (n+1)) := by
      intro p hp hpe h
      split at h
      · simp at h
      · have := ih _ _ _ hp h
        rw [hpe, Int.mul_assoc, ← Int.pow_succ'] at this
        exact this
    split at h
    · rename_i hb0
      exact key 0 (by decide) (by simp [hb0]) h
    · split at h
      · simp at h
      · split at h
        · exact key (r * b) (by rename_i _ _ h3; rw [magLL_iff] at h3; rw [inLL_iff]; omega) rfl h
        · simp at h

/-- **C04.** A power that is returned is exact: `b^e` for `e ≥ 0`, the truncated `1 / b^|e|`
for `e < 0`; it is finite and fits in 64 bits. No exclusions. -/
theorem C04_pow_exact {b e : Int} (hb : inLL b) (he : inLL e) {z : IntVal}
    (h : IntVal.pow (fin b) (fin e) = .ok z) :
    z.inf = false ∧ inLL z.v ∧
      z.v = if 0 ≤ e then b ^ e.toNat else Int.tdiv 1 (b ^ (-e).toNat) := by
  have heq : ∀ a c : Int, eqb (fin a) (fin c) = decide (a = c) := by
    intro a c; simp [eqb, fin]; rfl
  have hv : ∀ a : Int, (fin a).v = a := fun _ => rfl
  simp only [IntVal.pow, heq, isFinite, fin, Bool.not_false, Bool.not_true, Bool.or_self,
    Bool.false_eq_true, if_false, decide_eq_true_eq] at h
  simp only [← fin.eq_1] at h
  simp only [heq, hv, decide_eq_true_eq] at h
  by_cases h0 : e = 0
  · subst h0; simp at h; subst h; exact ⟨rfl, by unfold fin; decide, by simp [fin]⟩
  by_cases h1 : e = 1
  · subst h1; simp at h; subst h; exact ⟨rfl, hb, by simp [fin]⟩
  simp only [h0, h1, if_false] at h
  by_cases hneg : e < 0
  · simp only [hneg, if_true, if_neg (show ¬ (0 ≤ e) by omega)] at h ⊢
    obtain ⟨k, hk⟩ : ∃ k : Nat, (-e).toNat = k + 1 := ⟨(-e).toNat - 1, by omega⟩
    rw [hk]
    by_cases hb0 : b = 0
    · simp [hb0] at h
    by_cases hb1 : b = 1
    · subst hb1; simp at h; subst h; exact ⟨rfl, by unfold fin; decide, by simp [fin]⟩
    by_cases hbm : b = -1
    · subst hbm
      simp only [hb0, hb1, if_false, if_true, C01_mod he (show inLL 2 by decide), Res.ok_bind,
        show ((2:Int) = 0) = False by simp, heq, decide_eq_true_eq, Res.ok.injEq] at h
      have hpar : ∀ m : Nat, (-1 : Int) ^ m = if m % 2 = 0 then 1 else -1 := by
        intro m; induction m with
        | zero => simp
        | succ m ih => rw [pow_succ, ih]; split <;> split <;> omega
      rw [← hk, hpar]
      have hmod : e.tmod 2 = 0 ↔ (-e).toNat % 2 = 0 := by
        rw [← Int.dvd_iff_tmod_eq_zero]; omega
      by_cases hc : e.tmod 2 = 0
      · rw [if_pos (hmod.1 hc)]; rw [if_pos hc] at h; subst h
        exact ⟨rfl, by unfold fin; decide, by simp [fin]⟩
      · rw [if_neg (fun h' => hc (hmod.2 h'))]; rw [if_neg hc] at h; subst h
        exact ⟨rfl, by unfold fin; decide, by simp [fin]⟩
    · simp only [hb0, hb1, hbm, if_false, Res.ok.injEq] at h
      subst h
      refine ⟨rfl, by unfold fin; decide, ?_⟩
      symm
      have : 1 < (b ^ (k+1)).natAbs := by
        rw [Int.natAbs_pow]
        exact Nat.one_lt_pow (by omega) (by omega)
      simp only [fin]
      have h2 : (Int.tdiv 1 (b ^ (k+1))).natAbs = 0 := by
        rw [Int.natAbs_tdiv]; exact Nat.div_eq_of_lt (by simpa using this)
      omega
  · simp only [hneg, if_false] at h
    have := powLoop_ok hb _ _ _ _ (show inLL 1 by decide) h
    rw [if_pos (by omega)]
    rw [this.1]
    simp only [Int.one_mul] at this ⊢
    exact ⟨rfl, this.2, rfl⟩

/-- Powers by a negative exponent of zero are an error. -/
theorem C04_neg_pow_zero {e : Int} (he : e < 0) : IntVal.pow (fin 0) (fin e) = .err := by
  have h1 : eqb (fin e) (fin 0) = false := by simp [eqb, fin]; omega
  have h2 : eqb (fin e) (fin 1) = false := by simp [eqb, fin]; omega
  have h3 : eqb (fin 0) (fin 0) = true := by decide
  have h4 : (fin e).v < 0 := he
  simp [IntVal.pow, h1, h2, h3, h4]

theorem powLoop_no_ub {b : Int} (hb : inLL b) (hbm : b ≠ LMIN) : ∀ (n : Nat) (i : Int) (r : Int),
    inLL r → r ≠ LMIN → i + n ≤ INTMAX → powLoop (fin b) n i (fin r) ≠ .ub := by
  intro n
  induction n with
  | zero => intro i r _ _ _; simp [powLoop]
  | succ n ih =>
    intro i r hr hrm hi
    have hm : mulAssign (fin r) (fin b) = fin <$> safeMult r b := by
      simp [mulAssign, fin, isFinite]; rfl
    have hi' : i ≠ INTMAX := by omega
    simp only [powLoop, hm, safeMult_eq hr hb, hrm, hbm, or_self, if_false, hi']
    split
    · exact ih _ _ (by decide) (by decide) (by omega)
    · split
      · rename_i _ h3; rw [magLL_iff] at h3
        exact ih _ _ (by rw [inLL_iff]; omega) (by rw [LMIN_eq]; omega) (by omega)
      · simp

/-- **C04, definedness, partial**: no undefined behaviour for exponents up to `INT_MAX` and
bases other than `LLONG_MIN`. Missing: larger exponents and base `LLONG_MIN`, where the
code is undefined (`C04_pow_ub`). -/
theorem C04_pow_defined_partial {b e : Int} (hb : inLL b) (hbm : b ≠ LMIN) (he : inLL e)
    (hemax : e ≤ INTMAX) : IntVal.pow (fin b) (fin e) ≠ .ub := by
  simp only [IntVal.pow]
  split; · simp
  split; · simp
  split; · simp
  split
  · split; · simp
    split; · simp
    split
    · rw [C01_mod he (show inLL 2 by decide)]; simp
    · simp
  · rename_i h
    refine powLoop_no_ub hb hbm _ _ _ (by decide) (by decide) ?_
    simp only [fin] at h ⊢; unfold INTMAX at *; omega

theorem powLoop_one_ub : ∀ (n : Nat) (i : Int), i ≤ INTMAX → INTMAX < i + n →
    powLoop (fin 1) n i (fin 1) = .ub := by
  intro n
  induction n with
  | zero => intro i h1 h2; omega
  | succ n ih =>
    intro i h1 h2
    have : mulAssign (fin 1) (fin 1) = .ok (fin 1) := by decide
    simp only [powLoop, this, Res.ok_bind]
    split
    · rfl
    · exact ih _ (by omega) (by omega)

/-- The code is undefined for `1^e` with any exponent above `INT_MAX` (the loop counter is
an `int`), although the power is representable. -/
theorem C04_pow_ub {e : Int} (he : INTMAX < e) : IntVal.pow (fin 1) (fin e) = .ub := by
  have h1 : eqb (fin e) (fin 0) = false := by simp [eqb, fin]; unfold INTMAX at he; omega
  have h2 : eqb (fin e) (fin 1) = false := by simp [eqb, fin]; unfold INTMAX at he; omega
  have h4 : ¬ (fin e).v < 0 := by simp [fin]; unfold INTMAX at he; omega
  have h5 : (!(fin e).isFinite || !(fin 1).isFinite) = false := by simp [fin, isFinite]
  simp only [IntVal.pow, h1, h2, h4, h5, Bool.false_eq_true, if_false]
  refine powLoop_one_ub _ _ (by decide) ?_
  simp only [fin]; unfold INTMAX at *; omega

example : IntVal.pow (fin (-3)) (fin 5) = .ok (fin (-243)) ∧ IntVal.pow (fin 2) (fin 63) = .err ∧
    IntVal.pow (fin (-1)) (fin (-3)) = .ok (fin (-1)) ∧ INTMAX < 2147483648 := by decide

end MZ
