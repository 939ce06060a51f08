import Verif.IntVal.Props
import Verif.Ranges.Props
import Mathlib.Tactic.Linarith
import Mathlib.Tactic.IntervalCases
import Mathlib.Algebra.Order.Ring.Int
import Mathlib.Algebra.Order.Ring.Abs
/-!
# Domains for the results of `div`, `mod` and `pow` (lib/builtins.cpp 1119–1187, 1218–1277)

`compute_div_bounds`, `compute_mod_bounds` and `compute_pow_bounds` give the domain of the variable that stands for the result of an
operation on variables. The bounds of the arguments (property C11) are inputs here: `none` where `compute_int_bounds` is not valid.
-/
namespace MZ
namespace Builtin
open IntVal

/-- Bounds of an argument. -/
abbrev Bnd := Option (IntVal × IntVal)

/-- The result: the set of all integers, or `IntSetVal::a(m, n)`, empty if `m > n`. -/
inductive BSet where
  | all
  | rng (m n : IntVal)
  deriving DecidableEq, Repr

/-- The bounds are there and finite. -/
def finite? : Bnd → Option (IntVal × IntVal)
  | none => none
  | some (l, u) => if l.isFinite && u.isFinite then some (l, u) else none

/-- `min = std::min(min, v); max = std::max(max, v)`. -/
def upd (s : IntVal × IntVal) (v : IntVal) : IntVal × IntVal := (IntVal.min s.1 v, IntVal.max s.2 v)

/-- 1136–1143, 1146–1153: the corners for one range of divisors. -/
def corners (l u a b : IntVal) (s : IntVal × IntVal) : Res (IntVal × IntVal) := do
  let v1 ← IntVal.div l a
  let v2 ← IntVal.div l b
  let v3 ← IntVal.div u a
  let v4 ← IntVal.div u b
  .ok (upd (upd (upd (upd s v1) v2) v3) v4)

/-- The bounds of a range as numbers; the ranges are finite here. -/
def ends (r : Range) : IntVal × IntVal :=
  (match r.lo with | .fin a => fin a | .negInf => ⟨-1, true⟩ | .posInf => infinity,
   match r.hi with | .fin a => fin a | .negInf => ⟨-1, true⟩ | .posInf => infinity)

/-- 1134–1155: the first two ranges of divisors. -/
def divRanges (l u : IntVal) : List Range → IntVal × IntVal → Res (IntVal × IntVal)
  | [], s => .ok s
  | [r], s => corners l u (ends r).1 (ends r).2 s
  | r :: t :: _, s => do
    let s' ← corners l u (ends r).1 (ends r).2 s
    corners l u (ends t).1 (ends t).2 s'

/-- 1119–1157 `b_compute_div_bounds`. `Ranges::Diff` of the divisors and `0..0` is the iterator of property C06. -/
def divBounds (bx bY : Bnd) : Res BSet :=
  match finite? bx, finite? bY with
  | some (l, u), some (p, q) =>
    match Ranges.diff [⟨.fin p.v, .fin q.v⟩] [⟨.fin 0, .fin 0⟩] with
    | none => .err
    | some rs => do
      let s ← divRanges l u rs (maxint, minint)
      .ok (.rng s.1 s.2)
  | _, _ => .ok .all

/-- 1162–1172: the sign of the dividend. -/
def signOf : Bnd → Int
  | none => 0
  | some (l, u) => if l.isFinite && decide (l.v ≥ 0) then 1 else if u.isFinite && decide (u.v ≤ 0) then -1 else 0

/-- 1164: the dividend is 0. -/
def isZero : Bnd → Bool
  | none => false
  | some (l, u) => l.isFinite && l.v == 0 && u.isFinite && u.v == 0

/-- 1159–1187 `b_compute_mod_bounds`. -/
def modBounds (bx bY : Bnd) : Res BSet :=
  if isZero bx then .ok (.rng (fin 0) (fin 0)) else
  match finite? bY with
  | none => .ok .all
  | some (p, q) => do
    let np ← IntVal.neg p
    let am ← IntVal.sub (IntVal.max np q) (fin 1)
    if signOf bx > 0 then .ok (.rng (fin 0) am)
    else do
      let nam ← IntVal.neg am
      if signOf bx < 0 then .ok (.rng nam (fin 0)) else .ok (.rng nam am)

/-- 1241–1257: the updates for 1 and -1. -/
def powOnes (l u p q : IntVal) (s : IntVal × IntVal) : Res (IntVal × IntVal) :=
  let s := if (le l (fin 1) && ge u (fin 1)) || (le p (fin 0) && ge q (fin 0)) then upd s (fin 1) else s
  if le l (fin (-1)) && ge u (fin (-1)) then
    if neb p q then .ok (upd (upd s (fin (-1))) (fin 1))
    else do
      let m ← IntVal.mod p (fin 2)
      if eqb m (fin 0) then .ok (upd s (fin 1)) else .ok (upd s (fin (-1)))
  else .ok s

/-- 1259–1261: the update for the greatest base. -/
def powTop (u q : IntVal) (s : IntVal × IntVal) : Res (IntVal × IntVal) :=
  if neb u (fin 0) || ge q (fin 0) then (upd s) <$> IntVal.pow u q else .ok s

/-- 1259–1274: the updates for the ends of the bounds. -/
def powEnds (l u p q : IntVal) (s : IntVal × IntVal) : Res (IntVal × IntVal) := do
  let s ← powTop u q s
  if lt l (fin 0) then do
    let v ← IntVal.pow l q
    let s := upd s v
    if neb p q then do
      let q1 ← IntVal.sub q (fin 1)
      let v ← IntVal.pow l q1
      .ok (upd s v)
    else if ge u (fin 0) && gt p (fin 0) then .ok (upd s (fin 0))
    else .ok s
  else if (eqb l (fin 0) && gt q (fin 0)) || (gt u (fin 1) && lt p (fin 0)) then .ok (upd s (fin 0))
  else if ge p (fin 0) then (upd s) <$> IntVal.pow l p
  else .ok s

/-- 1218–1277 `b_compute_pow_bounds`; the empty set is `1..0`. -/
def powBounds (bx bY : Bnd) : Res BSet :=
  match finite? bx, finite? bY with
  | some (l, u), some (p, q) =>
    if eqb l (fin 0) && eqb u (fin 0) && lt q (fin 0) then .ok (.rng (fin 1) (fin 0)) else do
    let s ← powOnes l u p q (infinity, ⟨-1, true⟩)
    let s ← powEnds l u p q s
    .ok (.rng s.1 s.2)
  | _, _ => .ok .all

/-! ### Specification -/

/-- `x` is within the bounds. -/
def Bnd.Has (b : Bnd) (x : Int) : Prop :=
  match b with
  | none => True
  | some (l, u) => le l (fin x) = true ∧ le (fin x) u = true

/-- Bounds are 64-bit numbers or infinities. -/
def Bnd.WF (b : Bnd) : Prop := ∀ l u, b = some (l, u) → inLL l.v ∧ inLL u.v

/-- `x` is in the set. -/
def BSet.Has (s : BSet) (x : Int) : Prop :=
  match s with
  | .all => True
  | .rng m n => le m (fin x) = true ∧ le (fin x) n = true

/-- The power of integers: `0 ^ y` is not defined for `y < 0`, other powers with negative exponent are rounded towards 0. -/
def ipow (x y : Int) : Int := if 0 ≤ y then x ^ y.toNat else Int.tdiv 1 (x ^ (-y).toNat)

/-! ### Lemmas -/

theorem le_fin {a b : Int} : le (fin a) (fin b) = decide (a ≤ b) := by simp [le, fin, isPlusInfinity, isMinusInfinity, isFinite]; rfl
theorem lt_fin {a b : Int} : lt (fin a) (fin b) = decide (a < b) := by simp [lt, fin, isPlusInfinity, isMinusInfinity, isFinite]; rfl
theorem eqb_fin {a b : Int} : eqb (fin a) (fin b) = decide (a = b) := by simp [eqb, fin]; rfl

/-- The pair of a minimum and a maximum: nothing yet, or two numbers. -/
inductive St : IntVal × IntVal → Prop
  | init : St (infinity, ⟨-1, true⟩)
  | fin (a b : Int) : St (fin a, fin b)

/-- `v` is between the two. -/
def Cov (s : IntVal × IntVal) (v : Int) : Prop := le s.1 (fin v) = true ∧ le (fin v) s.2 = true

theorem St.upd {s : IntVal × IntVal} (h : St s) (v : Int) :
    St (upd s (IntVal.fin v)) ∧ Cov (Builtin.upd s (IntVal.fin v)) v ∧ ∀ w, Cov s w → Cov (Builtin.upd s (IntVal.fin v)) w := by
  cases h with
  | init =>
    have e : Builtin.upd (infinity, ⟨-1, true⟩) (IntVal.fin v) = (IntVal.fin v, IntVal.fin v) := by
      simp [Builtin.upd, IntVal.min, IntVal.max, lt, IntVal.fin, infinity, isPlusInfinity, isMinusInfinity, isFinite]
    rw [e]
    refine ⟨.fin v v, by simp [Cov, le_fin], fun w hw => ?_⟩
    simp [Cov, le, IntVal.fin, infinity, isPlusInfinity, isMinusInfinity, isFinite] at hw
  | fin a b =>
    have e : Builtin.upd (IntVal.fin a, IntVal.fin b) (IntVal.fin v) = (IntVal.fin (if v < a then v else a), IntVal.fin (if b < v then v else b)) := by
      simp only [Builtin.upd, IntVal.min, IntVal.max, lt_fin, decide_eq_true_eq]
      congr 1 <;> split <;> rfl
    rw [e]
    refine ⟨.fin _ _, ?_, fun w hw => ?_⟩
    · simp only [Cov, le_fin, decide_eq_true_eq]
      constructor <;> split <;> omega
    · simp only [Cov, le_fin, decide_eq_true_eq] at hw ⊢
      constructor <;> split <;> omega

theorem Cov.convex {s : IntVal × IntVal} (h : St s) {a b w : Int} (ha : Cov s a) (hb : Cov s b) (h1 : a ≤ w) (h2 : w ≤ b) : Cov s w := by
  cases h with
  | init => simp [Cov, le, IntVal.fin, infinity, isPlusInfinity, isMinusInfinity, isFinite] at ha
  | fin x y =>
    simp only [Cov, le_fin, decide_eq_true_eq] at *
    omega

theorem finite?_some {b : Bnd} {l u : IntVal} (h : finite? b = some (l, u)) : b = some (l, u) ∧ l = fin l.v ∧ u = fin u.v := by
  cases b with
  | none => simp [finite?] at h
  | some q =>
    obtain ⟨l', u'⟩ := q
    simp only [finite?] at h
    split at h
    · rename_i hf
      simp only [Option.some.injEq, Prod.mk.injEq] at h
      obtain ⟨rfl, rfl⟩ := h
      simp only [Bool.and_eq_true, isFinite, Bool.not_eq_true'] at hf
      refine ⟨rfl, ?_, ?_⟩
      · cases l'; simp_all [fin]
      · cases u'; simp_all [fin]
    · simp at h

/-! ### Division -/

theorem tdiv_mono {x x' y : Int} (h : x ≤ x') (hy : 0 < y) : x.tdiv y ≤ x'.tdiv y := Int.tdiv_le_tdiv hy h

theorem tdiv_neg_mono {x x' y : Int} (h : x ≤ x') (hy : y < 0) : x'.tdiv y ≤ x.tdiv y := by
  have h1 := Int.tdiv_le_tdiv (c := -y) (by omega) h
  rw [Int.tdiv_neg, Int.tdiv_neg] at h1
  omega

/-- For a fixed dividend and positive divisors `a ≤ y ≤ b` the quotient is between the quotients at the ends. -/
theorem tdiv_between_pos {x a y b : Int} (ha : 0 < a) (h1 : a ≤ y) (h2 : y ≤ b) :
    (x.tdiv a ≤ x.tdiv y ∧ x.tdiv y ≤ x.tdiv b) ∨ (x.tdiv b ≤ x.tdiv y ∧ x.tdiv y ≤ x.tdiv a) := by
  have key : ∀ z : Int, 0 ≤ z → ∀ c d : Int, 0 < c → c ≤ d → z.tdiv d ≤ z.tdiv c := by
    intro z hz c d hc hcd
    rw [Int.tdiv_eq_ediv_of_nonneg hz, Int.tdiv_eq_ediv_of_nonneg hz]
    have hd : 0 < d := by omega
    refine (Int.le_ediv_iff_mul_le hc).2 ?_
    have h3 : z / d * d ≤ z := Int.ediv_mul_le z (by omega)
    have h4 : 0 ≤ z / d := Int.ediv_nonneg hz (by omega)
    nlinarith
  by_cases hx : 0 ≤ x
  · exact .inr ⟨key x hx y b (by omega) h2, key x hx a y ha h1⟩
  · left
    have h3 := key (-x) (by omega) y b (by omega) h2
    have h4 := key (-x) (by omega) a y ha h1
    rw [Int.neg_tdiv, Int.neg_tdiv] at h3 h4
    omega

theorem tdiv_between_neg {x a y b : Int} (hb : b < 0) (h1 : a ≤ y) (h2 : y ≤ b) :
    (x.tdiv a ≤ x.tdiv y ∧ x.tdiv y ≤ x.tdiv b) ∨ (x.tdiv b ≤ x.tdiv y ∧ x.tdiv y ≤ x.tdiv a) := by
  have := tdiv_between_pos (x := x) (a := -b) (y := -y) (b := -a) (by omega) (by omega) (by omega)
  simp only [Int.tdiv_neg] at this
  omega

theorem div_ok {a b : Int} (ha : inLL a) (hb : inLL b) {v : IntVal} (h : IntVal.div (fin a) (fin b) = .ok v) : v = fin (a.tdiv b) := by
  rw [C01_div ha hb] at h
  split at h
  · simp at h
  · split at h
    · simp at h
    · simpa using h.symm

theorem corners_ok {l u a b : Int} (hl : inLL l) (hu : inLL u) (ha : inLL a) (hb : inLL b) {s s' : IntVal × IntVal} (hs : St s)
    (h : corners (fin l) (fin u) (fin a) (fin b) s = .ok s') :
    St s' ∧ (∀ w, Cov s w → Cov s' w) ∧ (0 < a ∨ b < 0 → ∀ x y, l ≤ x → x ≤ u → a ≤ y → y ≤ b → Cov s' (x.tdiv y)) := by
  unfold corners at h
  cases e1 : IntVal.div (fin l) (fin a) with
  | err => rw [e1] at h; simp at h
  | ub => rw [e1] at h; simp at h
  | ok v1 =>
  cases e2 : IntVal.div (fin l) (fin b) with
  | err => rw [e1, e2] at h; simp at h
  | ub => rw [e1, e2] at h; simp at h
  | ok v2 =>
  cases e3 : IntVal.div (fin u) (fin a) with
  | err => rw [e1, e2, e3] at h; simp at h
  | ub => rw [e1, e2, e3] at h; simp at h
  | ok v3 =>
  cases e4 : IntVal.div (fin u) (fin b) with
  | err => rw [e1, e2, e3, e4] at h; simp at h
  | ub => rw [e1, e2, e3, e4] at h; simp at h
  | ok v4 =>
  rw [e1, e2, e3, e4] at h
  simp only [Res.ok_bind, Res.ok.injEq] at h
  rw [div_ok hl ha e1, div_ok hl hb e2, div_ok hu ha e3, div_ok hu hb e4] at h
  obtain ⟨t1, c1, m1⟩ := hs.upd (l.tdiv a)
  obtain ⟨t2, c2, m2⟩ := t1.upd (l.tdiv b)
  obtain ⟨t3, c3, m3⟩ := t2.upd (u.tdiv a)
  obtain ⟨t4, c4, m4⟩ := t3.upd (u.tdiv b)
  subst h
  refine ⟨t4, fun w hw => m4 _ (m3 _ (m2 _ (m1 _ hw))), fun hsgn x y h1 h2 h3 h4 => ?_⟩
  have k1 := m4 _ (m3 _ (m2 _ c1))
  have k2 := m4 _ (m3 _ c2)
  have k3 := m4 _ c3
  clear m1 m2 m3 m4 c1 c2 c3 t1 t2 t3
  generalize Builtin.upd (Builtin.upd (Builtin.upd (Builtin.upd s (IntVal.fin (l.tdiv a))) (IntVal.fin (l.tdiv b))) (IntVal.fin (u.tdiv a))) (IntVal.fin (u.tdiv b)) = S at *
  -- the quotients at both ends of the divisors are covered
  have hend : ∀ z, (0 < z ∨ z < 0) → Cov S (l.tdiv z) → Cov S (u.tdiv z) → Cov S (x.tdiv z) := by
    intro z hz g1 g2
    rcases hz with hz | hz
    · exact Cov.convex t4 g1 g2 (tdiv_mono h1 hz) (tdiv_mono h2 hz)
    · exact Cov.convex t4 g2 g1 (tdiv_neg_mono h2 hz) (tdiv_neg_mono h1 hz)
  have ea := hend a (by omega) k1 k3
  have eb := hend b (by omega) k2 c4
  have hbt : (x.tdiv a ≤ x.tdiv y ∧ x.tdiv y ≤ x.tdiv b) ∨ (x.tdiv b ≤ x.tdiv y ∧ x.tdiv y ≤ x.tdiv a) := by
    rcases hsgn with h | h
    · exact tdiv_between_pos h h3 h4
    · exact tdiv_between_neg h h3 h4
  rcases hbt with ⟨g1, g2⟩ | ⟨g1, g2⟩
  · exact Cov.convex t4 ea eb g1 g2
  · exact Cov.convex t4 eb ea g1 g2

/-- The divisors without 0: at most two ranges. -/
theorem divisors {p q : Int} (h : p ≤ q) : ∃ rs, Ranges.diff [⟨.fin p, .fin q⟩] [⟨.fin 0, .fin 0⟩] = some rs ∧
    rs = (if p < 0 then [⟨.fin p, .fin (min q (-1))⟩] else []) ++ (if 0 < q then [⟨.fin (max p 1), .fin q⟩] else []) := by
  have n1 : Normal [⟨.fin p, .fin q⟩] := ⟨by simpa using h, by simp⟩
  have n2 : Normal [(⟨.fin 0, .fin 0⟩ : Range)] := ⟨by decide, by decide⟩
  obtain ⟨rs, h1, h2, h3⟩ := C06_diff _ _ n1 n2
  refine ⟨rs, h1, C05_canonical _ _ h2 ?_ fun x => ?_⟩
  · constructor
    · intro r hr
      rcases List.mem_append.1 hr with hr | hr
      · split at hr
        · rw [List.mem_singleton.1 hr]; simp; omega
        · cases hr
      · split at hr
        · rw [List.mem_singleton.1 hr]; simp; omega
        · cases hr
    · split <;> split <;> simp [Ext.succ]
  · rw [h3]
    split <;> split <;> simp [Mem, Range.Mem] <;> omega

/-- **C65** (div). Every quotient of values within the bounds of the operands is in the computed domain. -/
theorem _root_.MZ.C65_div (bx bY : Bnd) (hx : bx.WF) (hY : bY.WF) (S : BSet) (h : divBounds bx bY = .ok S) (x y : Int)
    (h1 : bx.Has x) (h2 : bY.Has y) (h0 : y ≠ 0) : S.Has (x.tdiv y) := by
  unfold divBounds at h
  split at h
  · rename_i l u p q e1 e2
    obtain ⟨f1, f2, f3⟩ := finite?_some e1
    obtain ⟨g1, g2, g3⟩ := finite?_some e2
    obtain ⟨wl, wu⟩ := hx l u f1
    obtain ⟨wp, wq⟩ := hY p q g1
    rw [f1] at h1
    rw [g1] at h2
    simp only [Bnd.Has] at h1 h2
    rw [f2, f3] at h1 h
    rw [g2, g3] at h2 h
    generalize l.v = l, u.v = u, p.v = p, q.v = q at *
    rw [le_fin, le_fin, decide_eq_true_eq, decide_eq_true_eq] at h1 h2
    obtain ⟨rs, r1, r2⟩ := divisors (p := p) (q := q) (by omega)
    have hv : ∀ z : Int, (fin z).v = z := fun _ => rfl
    rw [hv, hv, r1] at h
    simp only at h
    have i1 : inLL 1 := by decide
    have i2 : inLL (-1) := by decide
    have hs0 : St (maxint, minint) := .fin _ _
    have imin : inLL (min q (-1)) := by rw [min_def]; split <;> assumption
    have imax : inLL (max p 1) := by rw [max_def]; split <;> assumption
    by_cases hp : p < 0
    · by_cases hq : 0 < q
      · rw [r2, if_pos hp, if_pos hq] at h
        simp only [List.cons_append, List.nil_append, divRanges, ends] at h
        cases c1 : corners (fin l) (fin u) (fin p) (fin (min q (-1))) (maxint, minint) with
        | err => rw [c1] at h; simp at h
        | ub => rw [c1] at h; simp at h
        | ok s1 =>
          rw [c1] at h
          simp only [Res.ok_bind] at h
          obtain ⟨k1, k2, k3⟩ := corners_ok wl wu wp imin hs0 c1
          cases c2 : corners (fin l) (fin u) (fin (max p 1)) (fin q) s1 with
          | err => rw [c2] at h; simp at h
          | ub => rw [c2] at h; simp at h
          | ok s2 =>
            rw [c2] at h
            simp only [Res.ok_bind, Res.ok.injEq] at h
            obtain ⟨j1, j2, j3⟩ := corners_ok wl wu imax wq k1 c2
            subst h
            show Cov s2 _
            by_cases hy : y < 0
            · exact j2 _ (k3 (by omega) x y h1.1 h1.2 h2.1 (by omega))
            · exact j3 (by omega) x y h1.1 h1.2 (by omega) h2.2
      · rw [r2, if_pos hp, if_neg hq] at h
        simp only [List.append_nil, divRanges, ends] at h
        cases c1 : corners (fin l) (fin u) (fin p) (fin (min q (-1))) (maxint, minint) with
        | err => rw [c1] at h; simp at h
        | ub => rw [c1] at h; simp at h
        | ok s1 =>
          rw [c1] at h
          simp only [Res.ok_bind, Res.ok.injEq] at h
          obtain ⟨k1, k2, k3⟩ := corners_ok wl wu wp imin hs0 c1
          subst h
          exact k3 (by omega) x y h1.1 h1.2 h2.1 (by omega)
    · by_cases hq : 0 < q
      · rw [r2, if_neg hp, if_pos hq] at h
        simp only [List.nil_append, divRanges, ends] at h
        cases c1 : corners (fin l) (fin u) (fin (max p 1)) (fin q) (maxint, minint) with
        | err => rw [c1] at h; simp at h
        | ub => rw [c1] at h; simp at h
        | ok s1 =>
          rw [c1] at h
          simp only [Res.ok_bind, Res.ok.injEq] at h
          obtain ⟨k1, k2, k3⟩ := corners_ok wl wu imax wq hs0 c1
          subst h
          exact k3 (by omega) x y h1.1 h1.2 (by omega) h2.2
      · omega
  · simp only [Res.ok.injEq] at h
    subst h
    trivial

/-! ### Modulo -/

/-- **C65** (mod). Every remainder of values within the bounds of the operands is in the computed domain. -/
theorem _root_.MZ.C65_mod (bx bY : Bnd) (hY : bY.WF) (S : BSet) (h : modBounds bx bY = .ok S) (x y : Int)
    (h1 : bx.Has x) (h2 : bY.Has y) (h0 : y ≠ 0) : S.Has (x.tmod y) := by
  have hmod : |x.tmod y| < |y| := by
    have := Int.tmod_lt_of_pos
    rw [← Int.natCast_natAbs, ← Int.natCast_natAbs, Int.natAbs_tmod]
    exact_mod_cast Nat.mod_lt _ (by omega)
  have hpos : 0 ≤ x → 0 ≤ x.tmod y := fun hx => Int.tmod_nonneg y hx
  have hneg : x ≤ 0 → x.tmod y ≤ 0 := fun hx => by
    have := Int.tmod_nonneg y (a := -x) (by omega)
    rw [Int.neg_tmod] at this
    omega
  unfold modBounds at h
  split at h
  · rename_i hz
    simp only [Res.ok.injEq] at h
    subst h
    have hx0 : x = 0 := by
      cases bx with
      | none => simp [isZero] at hz
      | some lu =>
        obtain ⟨l, u⟩ := lu
        simp only [isZero, Bool.and_eq_true, beq_iff_eq] at hz
        obtain ⟨⟨⟨z1, z2⟩, z3⟩, z4⟩ := hz
        have el : l = fin 0 := by cases l; simp_all [fin, isFinite]
        have eu : u = fin 0 := by cases u; simp_all [fin, isFinite]
        simp only [Bnd.Has, el, eu, le_fin, decide_eq_true_eq] at h1
        omega
    subst hx0
    simp [BSet.Has, le_fin]
  · split at h
    · simp only [Res.ok.injEq] at h
      subst h
      trivial
    · rename_i p q e2
      obtain ⟨g1, g2, g3⟩ := finite?_some e2
      obtain ⟨wp, wq⟩ := hY p q g1
      rw [g1] at h2
      simp only [Bnd.Has] at h2
      rw [g2, g3] at h2 h
      generalize p.v = p, q.v = q at *
      rw [le_fin, le_fin, decide_eq_true_eq, decide_eq_true_eq] at h2
      rw [C01_neg wp] at h
      split at h
      · rename_i wnp
        simp only [Res.ok_bind] at h
        have emax : IntVal.max (fin (-p)) (fin q) = fin (max (-p) q) := by
          simp only [IntVal.max, lt_fin, decide_eq_true_eq]
          split
          · congr 1; omega
          · congr 1; omega
        have wm : inLL (max (-p) q) := by rw [max_def]; split <;> assumption
        rw [emax, C01_sub wm (by decide)] at h
        split at h
        · rename_i wam
          simp only [Res.ok_bind] at h
          have hsgn : ∀ (hs : signOf bx > 0), 0 ≤ x := by
            intro hs
            cases bx with
            | none => simp [signOf] at hs
            | some lu =>
              obtain ⟨l, u⟩ := lu
              simp only [signOf] at hs
              split at hs
              · rename_i hc
                simp only [Bool.and_eq_true, decide_eq_true_eq] at hc
                have el : l = fin l.v := by cases l; simp_all [fin, isFinite]
                simp only [Bnd.Has] at h1
                rw [el, le_fin] at h1
                have := h1.1
                simp at this
                omega
              · split at hs <;> omega
          have hsgn' : ∀ (hs : signOf bx < 0), x ≤ 0 := by
            intro hs
            cases bx with
            | none => simp [signOf] at hs
            | some lu =>
              obtain ⟨l, u⟩ := lu
              simp only [signOf] at hs
              split at hs
              · omega
              · split at hs
                · rename_i hc
                  simp only [Bool.and_eq_true, decide_eq_true_eq] at hc
                  have eu : u = fin u.v := by cases u; simp_all [fin, isFinite]
                  simp only [Bnd.Has] at h1
                  rw [eu, le_fin (b := u.v)] at h1
                  have := h1.2
                  simp at this
                  omega
                · omega
          rw [abs_lt] at hmod
          have habs : |y| ≤ max (-p) q := by rw [abs_le]; omega
          split at h
          · rename_i hs
            simp only [Res.ok.injEq] at h
            subst h
            have := hpos (hsgn hs)
            simp only [BSet.Has, le_fin, decide_eq_true_eq]
            omega
          · rw [C01_neg wam] at h
            split at h
            · simp only [Res.ok_bind] at h
              split at h
              · rename_i hs
                simp only [Res.ok.injEq] at h
                subst h
                have := hneg (hsgn' hs)
                simp only [BSet.Has, le_fin, decide_eq_true_eq]
                omega
              · simp only [Res.ok.injEq] at h
                subst h
                simp only [BSet.Has, le_fin, decide_eq_true_eq]
                omega
            · simp at h
        · simp at h
      · simp at h

/-! ### Powers -/

theorem ipow_one (y : Int) : ipow 1 y = 1 := by unfold ipow; split <;> simp

theorem neg_one_pow_nat (n : Nat) : (-1 : Int) ^ n = if n % 2 = 0 then 1 else -1 := by
  induction n with
  | zero => simp
  | succ n ih => rw [pow_succ, ih]; split <;> split <;> omega

theorem ipow_neg_one (y : Int) : ipow (-1) y = if y % 2 = 0 then 1 else -1 := by
  unfold ipow
  split
  · rw [neg_one_pow_nat]
    by_cases h : y % 2 = 0
    · rw [if_pos h, if_pos (by omega)]
    · rw [if_neg h, if_neg (by omega)]
  · rw [neg_one_pow_nat]
    by_cases h : y % 2 = 0
    · rw [if_pos h, if_pos (by omega)]; rfl
    · rw [if_neg h, if_neg (by omega)]; rfl

theorem ipow_big {x y : Int} (hx : x ≤ -2 ∨ 2 ≤ x) (hy : y < 0) : ipow x y = 0 := by
  unfold ipow
  rw [if_neg (by omega)]
  have h1 : 1 < (x ^ (-y).toNat).natAbs := by
    rw [Int.natAbs_pow]
    exact Nat.one_lt_pow (by omega) (by omega)
  have h2 : (Int.tdiv 1 (x ^ (-y).toNat)).natAbs = 0 := by
    rw [Int.natAbs_tdiv]; exact Nat.div_eq_of_lt (by simpa using h1)
  omega

theorem ipow_nat {x y : Int} (hy : 0 ≤ y) : ipow x y = x ^ y.toNat := by unfold ipow; rw [if_pos hy]

theorem pow_even {b : Int} {n : Nat} (h : n % 2 = 0) : b ^ n = (-b) ^ n := by
  rw [Even.neg_pow (Nat.even_iff.2 h)]

theorem pow_odd {b : Int} {n : Nat} (h : n % 2 = 1) : b ^ n = -(-b) ^ n := by
  rw [Odd.neg_pow (Nat.odd_iff.2 h)]; simp

theorem pow_mono {a b : Int} {m n : Nat} (h0 : 0 ≤ a) (hab : a ≤ b) (h1 : 1 ≤ b) (hmn : m ≤ n) : a ^ m ≤ b ^ n :=
  le_trans (pow_le_pow_left₀ h0 hab m) (pow_le_pow_right₀ h1 hmn)

/-- Numbers of both signs are covered. -/
def Signs (C : Int → Prop) : Prop := ∃ a b, a < 0 ∧ 0 < b ∧ C a ∧ C b

/-- What the updates cover. -/
structure PowFacts (C : Int → Prop) (l u p q : Int) : Prop where
  hc : ∀ a b w, C a → C b → a ≤ w → w ≤ b → C w
  F1 : (l ≤ 1 ∧ 1 ≤ u) ∨ (p ≤ 0 ∧ 0 ≤ q) → C 1
  F2 : l ≤ -1 → -1 ≤ u → (p ≠ q → C (-1) ∧ C 1) ∧ (p = q → C (ipow (-1) p))
  F3 : u ≠ 0 ∨ 0 ≤ q → C (ipow u q)
  F4 : l < 0 → C (ipow l q)
  F5 : l < 0 → p ≠ q → C (ipow l (q - 1))
  F6 : l < 0 → p = q → 0 ≤ u → 0 < p → C 0
  F7 : ¬ l < 0 → (l = 0 ∧ 0 < q) ∨ (1 < u ∧ p < 0) → C 0
  F8 : ¬ l < 0 → ¬ ((l = 0 ∧ 0 < q) ∨ (1 < u ∧ p < 0)) → 0 ≤ p → C (ipow l p)

/-- For positive exponents, a negative lower bound makes both signs possible. -/
theorem PowFacts.signs {C : Int → Prop} {l u p q : Int} (F : PowFacts C l u p q) (hl : l < 0) (hpq : p ≠ q) (hq : 1 ≤ q) : Signs C := by
  have c1 := F.F4 hl
  have c2 := F.F5 hl hpq
  rw [ipow_nat (by omega)] at c1 c2
  have e : q.toNat = (q - 1).toNat + 1 := by omega
  by_cases hpar : q.toNat % 2 = 0
  · refine ⟨_, _, ?_, ?_, c2, c1⟩
    · rw [pow_odd (by omega)]; have := pow_pos (show 0 < -l by omega) (q - 1).toNat; omega
    · rw [pow_even hpar]; exact pow_pos (by omega) _
  · refine ⟨_, _, ?_, ?_, c1, c2⟩
    · rw [pow_odd (by omega)]; have := pow_pos (show 0 < -l by omega) q.toNat; omega
    · rw [pow_even (by omega)]; exact pow_pos (by omega) _

theorem PowFacts.zero {C : Int → Prop} {l u p q : Int} (F : PowFacts C l u p q) (hl : l < 0) (hpq : p ≠ q) (hq : 1 ≤ q) : C 0 := by
  obtain ⟨a, b, h1, h2, h3, h4⟩ := F.signs hl hpq hq
  exact F.hc a b 0 h3 h4 (by omega) (by omega)

set_option maxHeartbeats 1000000 in
/-- The updates that the code makes are enough to span all powers. -/
theorem pow_cover {C : Int → Prop} {l u p q x y : Int} (F : PowFacts C l u p q)
    (hx1 : l ≤ x) (hx2 : x ≤ u) (hy1 : p ≤ y) (hy2 : y ≤ q) (hd : x ≠ 0 ∨ 0 ≤ y) : C (ipow x y) := by
  rcases lt_trichotomy y 0 with hy | hy | hy
  · by_cases e1 : x = 1
    · subst e1; rw [ipow_one]; exact F.F1 (.inl ⟨hx1, hx2⟩)
    by_cases e2 : x = -1
    · subst e2
      obtain ⟨g1, g2⟩ := F.F2 hx1 hx2
      by_cases hpq : p = q
      · have : y = p := by omega
        rw [this]; exact g2 hpq
      · rw [ipow_neg_one]
        split
        · exact (g1 hpq).2
        · exact (g1 hpq).1
    have hbig : x ≤ -2 ∨ 2 ≤ x := by omega
    rw [ipow_big hbig hy]
    by_cases hl : l < 0
    · by_cases hl2 : l ≤ -2
      · by_cases hq : q < 0
        · have := F.F4 hl; rw [ipow_big (.inl hl2) hq] at this; exact this
        · by_cases hq0 : q = 0
          · have := F.F5 hl (by omega); rw [ipow_big (.inl hl2) (by omega)] at this; exact this
          · exact F.zero hl (by omega) (by omega)
      · by_cases hpq : p = q
        · have := F.F3 (by omega); rw [ipow_big (.inr (by omega)) (by omega)] at this; exact this
        · obtain ⟨g1, g2⟩ := (F.F2 (by omega) (by omega)).1 hpq
          exact F.hc _ _ _ g1 g2 (by omega) (by omega)
    · exact F.F7 hl (.inr ⟨by omega, by omega⟩)
  · subst hy
    have : ipow x 0 = 1 := by simp [ipow]
    rw [this]
    exact F.F1 (.inr ⟨hy1, hy2⟩)
  · have hyn : y.toNat ≤ q.toNat := by omega
    rcases lt_trichotomy x 0 with hx | hx | hx
    · have hl : l < 0 := by omega
      rw [ipow_nat (by omega)]
      have c4 := F.F4 hl
      rw [ipow_nat (by omega)] at c4
      by_cases hpq : p = q
      · have hyq : y = q := by omega
        subst hyq
        have c3 := F.F3 (.inr (by omega))
        rw [ipow_nat (by omega)] at c3
        by_cases hpar : y.toNat % 2 = 0
        · have hup : x ^ y.toNat ≤ l ^ y.toNat := by
            rw [pow_even hpar, pow_even (b := l) hpar]
            exact pow_le_pow_left₀ (by omega) (by omega) _
          by_cases hu : 0 ≤ u
          · have c0 := F.F6 hl hpq hu (by omega)
            refine F.hc 0 _ _ c0 c4 ?_ hup
            rw [pow_even hpar]; exact pow_nonneg (by omega) _
          · refine F.hc _ _ _ c3 c4 ?_ hup
            rw [pow_even hpar, pow_even (b := x) hpar]
            exact pow_le_pow_left₀ (by omega) (by omega) _
        · have hodd : Odd y.toNat := Nat.odd_iff.2 (by omega)
          exact F.hc _ _ _ c4 c3 (hodd.strictMono_pow.monotone hx1) (hodd.strictMono_pow.monotone hx2)
      · obtain ⟨a, b, s1, s2, s3, s4⟩ := F.signs hl hpq (by omega)
        have c5 := F.F5 hl hpq
        rw [ipow_nat (by omega)] at c5
        by_cases hpar : y.toNat % 2 = 0
        · have h0 : 0 ≤ x ^ y.toNat := by rw [pow_even hpar]; exact pow_nonneg (by omega) _
          by_cases hq : q.toNat % 2 = 0
          · refine F.hc a _ _ s3 c4 (by omega) ?_
            rw [pow_even hpar, pow_even (b := l) hq]
            exact pow_mono (by omega) (by omega) (by omega) hyn
          · refine F.hc a _ _ s3 c5 (by omega) ?_
            rw [pow_even hpar, pow_even (b := l) (by omega)]
            exact pow_mono (by omega) (by omega) (by omega) (by omega)
        · have h0 : x ^ y.toNat ≤ 0 := by
            rw [pow_odd (by omega)]; have := pow_nonneg (show 0 ≤ -x by omega) y.toNat; omega
          by_cases hq : q.toNat % 2 = 0
          · refine F.hc _ b _ c5 s4 ?_ (by omega)
            rw [pow_odd (b := x) (by omega), pow_odd (b := l) (by omega)]
            have := pow_mono (a := -x) (b := -l) (m := y.toNat) (n := (q - 1).toNat) (by omega) (by omega) (by omega) (by omega)
            omega
          · refine F.hc _ b _ c4 s4 ?_ (by omega)
            rw [pow_odd (b := x) (by omega), pow_odd (b := l) (by omega)]
            have := pow_mono (a := -x) (b := -l) (m := y.toNat) (n := q.toNat) (by omega) (by omega) (by omega) hyn
            omega
    · subst hx
      rw [ipow_nat (by omega), zero_pow (by omega)]
      by_cases hl : l < 0
      · by_cases hpq : p = q
        · exact F.F6 hl hpq hx2 (by omega)
        · exact F.zero hl hpq (by omega)
      · exact F.F7 hl (.inl ⟨by omega, by omega⟩)
    · have c3 := F.F3 (.inl (by omega))
      rw [ipow_nat (by omega)] at c3
      rw [ipow_nat (by omega)]
      have hup : x ^ y.toNat ≤ u ^ q.toNat := pow_mono (by omega) hx2 (by omega) hyn
      have h0 : 0 < x ^ y.toNat := pow_pos hx _
      by_cases hl : l < 0
      · by_cases hpq : p = q
        · exact F.hc 0 _ _ (F.F6 hl hpq (by omega) (by omega)) c3 (by omega) hup
        · exact F.hc 0 _ _ (F.zero hl hpq (by omega)) c3 (by omega) hup
      · by_cases h7 : (l = 0 ∧ 0 < q) ∨ (1 < u ∧ p < 0)
        · exact F.hc 0 _ _ (F.F7 hl h7) c3 (by omega) hup
        · by_cases hp : 0 ≤ p
          · have c8 := F.F8 hl h7 hp
            rw [ipow_nat hp] at c8
            exact F.hc _ _ _ c8 c3 (pow_mono (by omega) hx1 (by omega) (by omega)) hup
          · have eu : u = 1 := by omega
            have ex : x = 1 := by omega
            rw [ex, one_pow]
            rw [eu, one_pow] at c3
            exact c3

theorem pow_ok {b e : Int} (hb : inLL b) (he : inLL e) {z : IntVal} (h : IntVal.pow (fin b) (fin e) = .ok z) : z = fin (ipow b e) := by
  obtain ⟨h1, -, h3⟩ := C04_pow_exact hb he h
  cases z
  simp only at h1 h3
  subst h1
  simp only [fin, ipow, h3]

/-- The updates for 1 and -1. -/
theorem powOnes_ok {l u p q : Int} (hp : inLL p) {s s' : IntVal × IntVal} (hs : St s) (h : powOnes (fin l) (fin u) (fin p) (fin q) s = .ok s') :
    St s' ∧ ((l ≤ 1 ∧ 1 ≤ u) ∨ (p ≤ 0 ∧ 0 ≤ q) → Cov s' 1) ∧
    (l ≤ -1 → -1 ≤ u → (p ≠ q → Cov s' (-1) ∧ Cov s' 1) ∧ (p = q → Cov s' (ipow (-1) p))) := by
  unfold powOnes at h
  simp only [le_fin, ge, neb, eqb_fin, Bool.or_eq_true, Bool.and_eq_true, decide_eq_true_eq, Bool.not_eq_true', decide_eq_false_iff_not] at h
  obtain ⟨t, ht, hs1, hc1⟩ : ∃ t, (if (l ≤ 1 ∧ 1 ≤ u) ∨ (p ≤ 0 ∧ 0 ≤ q) then upd s (fin 1) else s) = t ∧ St t ∧
      ((l ≤ 1 ∧ 1 ≤ u) ∨ (p ≤ 0 ∧ 0 ≤ q) → Cov t 1) := by
    refine ⟨_, rfl, ?_⟩
    split
    · exact ⟨(hs.upd 1).1, fun _ => (hs.upd 1).2.1⟩
    · rename_i hn; exact ⟨hs, fun hh => absurd hh hn⟩
  rw [ht] at h
  split at h
  · split at h
    · rename_i hpq
      simp only [Res.ok.injEq] at h
      subst h
      obtain ⟨a1, a2, a3⟩ := hs1.upd (-1)
      obtain ⟨b1, b2, b3⟩ := a1.upd 1
      exact ⟨b1, fun _ => b2, fun _ _ => ⟨fun _ => ⟨b3 _ a2, b2⟩, fun e => absurd e hpq⟩⟩
    · rename_i hpq
      rw [C01_mod hp (by decide)] at h
      simp only [show ((2 : Int) = 0) = False by simp, if_false, Res.ok_bind, eqb_fin, decide_eq_true_eq] at h
      have hmod : p.tmod 2 = 0 ↔ p % 2 = 0 := by rw [← Int.dvd_iff_tmod_eq_zero]; omega
      have hpq' : p = q := by omega
      split at h
      · rename_i hm
        simp only [Res.ok.injEq] at h
        subst h
        obtain ⟨a1, a2, a3⟩ := hs1.upd 1
        refine ⟨a1, fun hh => a2, fun _ _ => ⟨fun e => absurd hpq' e, fun _ => ?_⟩⟩
        rw [ipow_neg_one, if_pos (hmod.1 hm)]; exact a2
      · rename_i hm
        simp only [Res.ok.injEq] at h
        subst h
        obtain ⟨a1, a2, a3⟩ := hs1.upd (-1)
        refine ⟨a1, fun hh => a3 _ (hc1 hh), fun _ _ => ⟨fun e => absurd hpq' e, fun _ => ?_⟩⟩
        rw [ipow_neg_one, if_neg fun hh => hm (hmod.2 hh)]; exact a2
  · rename_i hn
    simp only [Res.ok.injEq] at h
    subst h
    exact ⟨hs1, hc1, fun g1 g2 => absurd ⟨g1, g2⟩ hn⟩

/-- The updates for the ends. -/
theorem powEnds_ok {l u p q : Int} (hl : inLL l) (hu : inLL u) (hp : inLL p) (hq : inLL q) {s s' : IntVal × IntVal} (hs : St s)
    (h : powEnds (fin l) (fin u) (fin p) (fin q) s = .ok s') :
    St s' ∧ (∀ w, Cov s w → Cov s' w) ∧ (u ≠ 0 ∨ 0 ≤ q → Cov s' (ipow u q)) ∧ (l < 0 → Cov s' (ipow l q)) ∧
    (l < 0 → p ≠ q → Cov s' (ipow l (q - 1))) ∧ (l < 0 → p = q → 0 ≤ u → 0 < p → Cov s' 0) ∧
    (¬ l < 0 → (l = 0 ∧ 0 < q) ∨ (1 < u ∧ p < 0) → Cov s' 0) ∧
    (¬ l < 0 → ¬ ((l = 0 ∧ 0 < q) ∨ (1 < u ∧ p < 0)) → 0 ≤ p → Cov s' (ipow l p)) := by
  unfold powEnds at h
  simp only [le_fin, lt_fin, ge, gt, neb, eqb_fin, Bool.or_eq_true, Bool.and_eq_true, decide_eq_true_eq, Bool.not_eq_true', decide_eq_false_iff_not] at h
  obtain ⟨t, ht, hs1, hm1, hc1⟩ : ∃ t, powTop (fin u) (fin q) s = .ok t ∧ St t ∧
      (∀ w, Cov s w → Cov t w) ∧ (u ≠ 0 ∨ 0 ≤ q → Cov t (ipow u q)) := by
    have et : powTop (fin u) (fin q) s = if ¬ u = 0 ∨ 0 ≤ q then (upd s) <$> IntVal.pow (fin u) (fin q) else .ok s := by
      unfold powTop
      simp only [le_fin, ge, neb, eqb_fin, Bool.or_eq_true, decide_eq_true_eq, Bool.not_eq_true', decide_eq_false_iff_not]
    rw [et] at h ⊢
    clear et
    by_cases hc : ¬ u = 0 ∨ 0 ≤ q
    · rw [if_pos hc] at h ⊢
      cases e : IntVal.pow (fin u) (fin q) with
      | err => rw [e] at h; simp at h
      | ub => rw [e] at h; simp at h
      | ok v =>
        rw [pow_ok hu hq e]
        obtain ⟨a1, a2, a3⟩ := hs.upd (ipow u q)
        exact ⟨_, rfl, a1, a3, fun _ => a2⟩
    · rw [if_neg hc]
      exact ⟨s, rfl, hs, fun _ h => h, fun hh => absurd hh hc⟩
  rw [ht] at h
  simp only [Res.ok_bind] at h
  split at h
  · rename_i hl0
    cases e : IntVal.pow (fin l) (fin q) with
    | err => rw [e] at h; simp at h
    | ub => rw [e] at h; simp at h
    | ok v =>
      rw [e, pow_ok hl hq e] at h
      simp only [Res.ok_bind] at h
      obtain ⟨a1, a2, a3⟩ := hs1.upd (ipow l q)
      split at h
      · rename_i hpq
        rw [C01_sub hq (by decide)] at h
        split at h
        · rename_i hq1
          simp only [Res.ok_bind] at h
          cases e' : IntVal.pow (fin l) (fin (q - 1)) with
          | err => rw [e'] at h; simp at h
          | ub => rw [e'] at h; simp at h
          | ok v' =>
            rw [e', pow_ok hl hq1 e'] at h
            simp only [Res.ok_bind, Res.ok.injEq] at h
            subst h
            obtain ⟨b1, b2, b3⟩ := a1.upd (ipow l (q - 1))
            exact ⟨b1, fun w hw => b3 _ (a3 _ (hm1 _ hw)), fun hh => b3 _ (a3 _ (hc1 hh)), fun _ => b3 _ a2, fun _ _ => b2,
              fun _ hh => absurd hh hpq, fun hh => absurd hl0 hh, fun hh => absurd hl0 hh⟩
        · simp at h
      · rename_i hpq
        split at h
        · simp only [Res.ok.injEq] at h
          subst h
          obtain ⟨b1, b2, b3⟩ := a1.upd 0
          exact ⟨b1, fun w hw => b3 _ (a3 _ (hm1 _ hw)), fun hh => b3 _ (a3 _ (hc1 hh)), fun _ => b3 _ a2, fun _ hh => absurd hh hpq,
            fun _ _ _ _ => b2, fun hh => absurd hl0 hh, fun hh => absurd hl0 hh⟩
        · rename_i hn
          simp only [Res.ok.injEq] at h
          subst h
          exact ⟨a1, fun w hw => a3 _ (hm1 _ hw), fun hh => a3 _ (hc1 hh), fun _ => a2, fun _ hh => absurd hh hpq,
            fun _ _ g1 g2 => absurd ⟨g1, g2⟩ hn, fun hh => absurd hl0 hh, fun hh => absurd hl0 hh⟩
  · rename_i hl0
    split at h
    · simp only [Res.ok.injEq] at h
      subst h
      rename_i h7
      obtain ⟨b1, b2, b3⟩ := hs1.upd 0
      exact ⟨b1, fun w hw => b3 _ (hm1 _ hw), fun hh => b3 _ (hc1 hh), fun hh => absurd hh hl0, fun hh => absurd hh hl0,
        fun hh => absurd hh hl0, fun _ _ => b2, fun _ hh => absurd h7 hh⟩
    · rename_i h7
      split at h
      · cases e : IntVal.pow (fin l) (fin p) with
        | err => rw [e] at h; simp at h
        | ub => rw [e] at h; simp at h
        | ok v =>
          rw [e, pow_ok hl hp e] at h
          simp only [Res.ok_map, Res.ok.injEq] at h
          subst h
          obtain ⟨b1, b2, b3⟩ := hs1.upd (ipow l p)
          exact ⟨b1, fun w hw => b3 _ (hm1 _ hw), fun hh => b3 _ (hc1 hh), fun hh => absurd hh hl0, fun hh => absurd hh hl0,
            fun hh => absurd hh hl0, fun _ hh => absurd hh h7, fun _ _ _ => b2⟩
      · rename_i hp0
        simp only [Res.ok.injEq] at h
        subst h
        exact ⟨hs1, hm1, hc1, fun hh => absurd hh hl0, fun hh => absurd hh hl0,
            fun hh => absurd hh hl0, fun _ hh => absurd hh h7, fun _ _ hh => absurd hh hp0⟩

/-- **C65** (pow). Every defined power of values within the bounds of the operands is in the computed domain. -/
theorem _root_.MZ.C65_pow (bx bY : Bnd) (hx : bx.WF) (hY : bY.WF) (S : BSet) (h : powBounds bx bY = .ok S) (x y : Int)
    (h1 : bx.Has x) (h2 : bY.Has y) (h0 : x ≠ 0 ∨ 0 ≤ y) : S.Has (ipow x y) := by
  unfold powBounds at h
  split at h
  · rename_i l u p q e1 e2
    obtain ⟨f1, f2, f3⟩ := finite?_some e1
    obtain ⟨g1, g2, g3⟩ := finite?_some e2
    obtain ⟨wl, wu⟩ := hx l u f1
    obtain ⟨wp, wq⟩ := hY p q g1
    rw [f1] at h1
    rw [g1] at h2
    simp only [Bnd.Has] at h1 h2
    rw [f2, f3] at h1 h
    rw [g2, g3] at h2 h
    generalize l.v = l, u.v = u, p.v = p, q.v = q at *
    rw [le_fin, le_fin, decide_eq_true_eq, decide_eq_true_eq] at h1 h2
    simp only [eqb_fin, lt_fin, Bool.and_eq_true, decide_eq_true_eq] at h
    split at h
    · omega
    · cases c1 : powOnes (fin l) (fin u) (fin p) (fin q) (infinity, ⟨-1, true⟩) with
      | err => rw [c1] at h; simp at h
      | ub => rw [c1] at h; simp at h
      | ok s1 =>
        rw [c1] at h
        simp only [Res.ok_bind] at h
        cases c2 : powEnds (fin l) (fin u) (fin p) (fin q) s1 with
        | err => rw [c2] at h; simp at h
        | ub => rw [c2] at h; simp at h
        | ok s2 =>
          rw [c2] at h
          simp only [Res.ok_bind, Res.ok.injEq] at h
          subst h
          obtain ⟨a1, a2, a3⟩ := powOnes_ok wp .init c1
          obtain ⟨b1, b2, b3, b4, b5, b6, b7, b8⟩ := powEnds_ok wl wu wp wq a1 c2
          exact pow_cover (C := Cov s2) ⟨fun a b w k1 k2 k3 k4 => Cov.convex b1 k1 k2 k3 k4,
            fun hh => b2 _ (a2 hh),
            fun g1 g2 => ⟨fun hh => ⟨b2 _ ((a3 g1 g2).1 hh).1, b2 _ ((a3 g1 g2).1 hh).2⟩, fun hh => b2 _ ((a3 g1 g2).2 hh)⟩,
            b3, b4, b5, b6, b7, b8⟩ h1.1 h1.2 h2.1 h2.2 h0
  · simp only [Res.ok.injEq] at h
    subst h
    trivial

/-- **C65** (the domain of a power is not always computed). The end points of the bounds are raised to the power in 64-bit arithmetic: for
`x` in `0..1000000` and `y` in `0..10` an overflow error is raised, although most powers are representable. -/
theorem _root_.MZ.C65_pow_overflow : powBounds (some (fin 0, fin 1000000)) (some (fin 0, fin 10)) = .err := by decide +kernel

example : divBounds (some (fin (-7), fin 9)) (some (fin (-2), fin 3)) = .ok (.rng (fin (-9)) (fin 9)) ∧
    modBounds (some (fin 0, fin 9)) (some (fin (-2), fin 5)) = .ok (.rng (fin 0) (fin 4)) ∧
    powBounds (some (fin (-3), fin 2)) (some (fin 0, fin 3)) = .ok (.rng (fin (-27)) (fin 9)) ∧
    Bnd.WF (some (fin (-3), fin 2)) := by
  refine ⟨?_, by decide, by decide, fun l u h => ?_⟩
  · decide +kernel
  · simp only [Option.some.injEq, Prod.mk.injEq] at h
    obtain ⟨rfl, rfl⟩ := h
    exact ⟨by decide, by decide⟩

end Builtin
end MZ
