import Verif.LinLib.Bools

/-!
# C80: the comparison, Boolean and linear predicates of the linear library mean what they say

A variable of the model is a domain with a value in it (`V`), or a pair of bounds with a value between them (`F`).  A
predicate of the library holds if its constraints can be satisfied, with some values of the variables it introduces.
`Opts` are the options of the linear library (domain post-processing, indicator constraints, the lengths up to which
variables are encoded in unary, the tolerance for floats).
-/

namespace MZ.LinLib

/-- **Reified comparisons of integers.** -/
theorem _root_.MZ.C80_int_reified (o : Opts) (x y b : V) (c : Int) (hb : b.IsB) :
    (intLeReif o x y b ↔ (b.val = 1 ↔ x.val ≤ y.val)) ∧
    (intLtReif o x y b ↔ (b.val = 1 ↔ x.val < y.val)) ∧
    (intEqReif o x y b ↔ (b.val = 1 ↔ x.val = y.val)) ∧
    (intNeReif o x y b ↔ (b.val = 1 ↔ x.val ≠ y.val)) ∧
    (intLeReifVC o x c b ↔ (b.val = 1 ↔ x.val ≤ c)) ∧
    (intLeReifCV o c y b ↔ (b.val = 1 ↔ c ≤ y.val)) ∧
    (intEqReifC o x c b ↔ (b.val = 1 ↔ x.val = c)) ∧
    (intNeReifC o x c b ↔ (b.val = 1 ↔ x.val ≠ c)) :=
  ⟨intLeReif_iff o x y b hb, intLtReif_iff o x y b hb, intEqReif_iff o x y b hb, intNeReif_iff o x y b hb,
    intLeReifVC_iff o x b c hb, intLeReifCV_iff o y b c hb, intEqReifC_iff o x b c hb, intNeReifC_iff o x b c hb⟩

/-- **Half-reified comparisons of integers.** -/
theorem _root_.MZ.C80_int_half_reified (o : Opts) (x y b : V) (c : Int) (hb : b.IsB) :
    (intLeImp o x y b ↔ (b.val = 1 → x.val ≤ y.val)) ∧
    (intLtImp o x y b ↔ (b.val = 1 → x.val < y.val)) ∧
    (intEqImp o x y b ↔ (b.val = 1 → x.val = y.val)) ∧
    (intEqImpC o x c b ↔ (b.val = 1 → x.val = c)) ∧
    (auxIntNeIf1 o x y b ↔ (b.val = 1 → x.val ≠ y.val)) ∧
    (auxIntLeIf0 o x y b ↔ (b.val = 0 → x.val ≤ y.val)) ∧
    (auxIntGeIf1 o x y b ↔ (b.val = 1 → x.val ≥ y.val)) ∧
    (auxIntLtIf0 o x y b ↔ (b.val = 0 → x.val < y.val)) ∧
    (auxIntGtIf1 o x y b ↔ (b.val = 1 → x.val > y.val)) :=
  ⟨intLeImp_iff o x y b hb, intLtImp_iff o x y b hb, intEqImp_iff o x y b hb, intEqImpC_iff o x b c hb,
    auxIntNeIf1_iff o x y b hb, auxIntLeIf0_iff o x y b hb, auxIntGeIf1_iff o x y b hb, auxIntLtIf0_iff o x y b hb,
    auxIntGtIf1_iff o x y b hb⟩

/-- **Disequality of integers.** -/
theorem _root_.MZ.C80_int_ne (o : Opts) (x y : V) (c : Int) :
    (intNe o x y ↔ x.val ≠ y.val) ∧ (intNeC o x c ↔ x.val ≠ c) := ⟨intNe_iff o x y, intNeC_iff o x c⟩

/-- **The equality encoding**: there is exactly one, and it is 1 at the value of the variable and 0 at the other values
between its bounds. -/
theorem _root_.MZ.C80_equality_encoding (o : Opts) (x : V) :
    (∃ q, EqEncode o x q) ∧
    ∀ q, EqEncode o x q → ∀ d, x.lb ≤ d → d ≤ x.ub → q d = if d = x.val then 1 else 0 :=
  ⟨exists_eqEncode o x, fun q h d h1 h2 => (eqEncode_iff o x q).1 h d (Finset.mem_Icc.2 ⟨h1, h2⟩)⟩

/-- **Linear comparisons of integers.** -/
theorem _root_.MZ.C80_int_linear (o : Opts) (ts : List (Int × V)) (c : Int) (b : V) (hb : b.IsB) (s : Int)
    (hs : s = (ts.map (fun t => t.1 * t.2.val)).sum) :
    (intLinLeReif o ts c b ↔ (b.val = 1 ↔ s ≤ c)) ∧
    (intLinLeImp o ts c b ↔ (b.val = 1 → s ≤ c)) ∧
    (intLinEqImp o ts c b ↔ (b.val = 1 → s = c)) := by
  rw [hs, ← V.lin_val]
  exact ⟨intLinLeReif_iff o ts c b hb, intLinLeImp_iff o ts c b hb, intLinEqImp_iff o ts c b hb⟩

/-- **Linear equalities and disequalities of integers**, unless new integer variables are to be avoided and the older
translation is asked for, without domain post-processing. -/
theorem _root_.MZ.C80_int_linear_eq_partial (o : Opts) (ts : List (Int × V)) (c : Int) (b : V) (hb : b.IsB)
    (ho : (o.post = true ∧ o.diff = true) ∨ ¬ (o.avoidNI = true ∧ o.eqOld = true)) (s : Int)
    (hs : s = (ts.map (fun t => t.1 * t.2.val)).sum) :
    (intLinEqReif o ts c b ↔ (b.val = 1 ↔ s = c)) ∧
    (intLinNeReif o ts c b ↔ (b.val = 1 ↔ s ≠ c)) ∧
    (intLinNe o ts c ↔ s ≠ c) := by
  rw [hs, ← V.lin_val]
  exact ⟨intLinEqReif_iff o ts c b hb ho, intLinNeReif_iff o ts c b hb ho, intLinNe_iff o ts c ho⟩

/-- With these options the translation stops with an assertion, for every linear equality. -/
theorem _root_.MZ.C80_int_lin_eq_reif_fails (o : Opts) (h1 : ¬ (o.post = true ∧ o.diff = true))
    (h2 : o.avoidNI = true ∧ o.eqOld = true) (ts : List (Int × V)) (c : Int) (b : V) : ¬ intLinEqReif o ts c b := by
  unfold intLinEqReif
  rw [if_neg (by simpa using h1), if_pos (by simpa using h2)]
  exact id

/-- **Linear equalities of Booleans**, unless the domains of differences are post-processed. -/
theorem _root_.MZ.C80_bool_linear_partial (o : Opts) (ts : List (Int × V)) (c : Int) (b : V) (hb : b.IsB) (s : Int)
    (hs : s = (ts.map (fun t => t.1 * t.2.val)).sum) :
    (∀ y : V, boolLinEq ts y ↔ s = y.val) ∧
    (boolLinEqImp o ts c b ↔ (b.val = 1 → s = c)) ∧
    (b.fixed ∨ ¬ (o.post = true ∧ o.diff = true) → (boolLinEqReif o ts c b ↔ (b.val = 1 ↔ s = c))) := by
  rw [hs, ← V.lin_val]
  exact ⟨fun _ => Iff.rfl, auxIntEqIf1_iff o _ _ b hb, fun ho => auxIntEqIff1_iff o _ _ b hb ho⟩

/-- With post-processing `bool_lin_eq_reif` stops with an assertion unless `b` is fixed. -/
theorem _root_.MZ.C80_bool_lin_eq_reif_fails (o : Opts) (h : o.post = true ∧ o.diff = true) (ts : List (Int × V))
    (c : Int) (b : V) (hb : ¬ b.fixed) : ¬ boolLinEqReif o ts c b := by
  unfold boolLinEqReif auxIntEqIff1
  rw [if_neg hb, if_pos (by simpa using h)]
  exact id

/-- **Boolean constraints and their reifications.** -/
theorem _root_.MZ.C80_bools (x y b : V) (hx : x.IsB) (hy : y.IsB) (hb : b.IsB) :
    (boolNot x y ↔ (x.val = 1 ↔ ¬ y.val = 1)) ∧
    (boolEq x y ↔ (x.val = 1 ↔ y.val = 1)) ∧
    (boolXor2 x y ↔ ¬ (x.val = 1 ↔ y.val = 1)) ∧
    (boolLe x y ↔ (x.val = 1 → y.val = 1)) ∧
    (boolLt x y ↔ (¬ x.val = 1 ∧ y.val = 1)) ∧
    (boolAnd x y b ↔ (b.val = 1 ↔ x.val = 1 ∧ y.val = 1)) ∧
    (boolAndInt x y b ↔ (b.val = 1 ↔ x.val = 1 ∧ y.val = 1)) ∧
    (boolOr x y b ↔ (b.val = 1 ↔ x.val = 1 ∨ y.val = 1)) ∧
    (boolXor x y b ↔ (b.val = 1 ↔ ¬ (x.val = 1 ↔ y.val = 1))) ∧
    (boolEqReif x y b ↔ (b.val = 1 ↔ (x.val = 1 ↔ y.val = 1))) ∧
    (boolLeReif x y b ↔ (b.val = 1 ↔ (x.val = 1 → y.val = 1))) ∧
    (boolLtReif x y b ↔ (b.val = 1 ↔ ¬ x.val = 1 ∧ y.val = 1)) :=
  ⟨boolNot_iff x y hx hy, boolEq_iff x y hx hy, boolXor2_iff x y hx hy, boolLe_iff x y hx hy, boolLt_iff x y hx,
    boolAnd_iff x y b hx hy hb, boolAndInt_iff x y b hx hy hb, boolOr_iff x y b hx hy hb, boolXor_iff x y b hx hy hb,
    boolEqReif_iff x y b hx hy hb, boolLeReif_iff x y b hx hy hb, boolLtReif_iff x y b hx hy hb⟩

/-- **Half-reified Boolean constraints.** -/
theorem _root_.MZ.C80_bools_half_reified (x y b : V) (hx : x.IsB) (hy : y.IsB) (hb : b.IsB) :
    (boolEqImp x y b ↔ (b.val = 1 → (x.val = 1 ↔ y.val = 1))) ∧
    (boolXorImp x y b ↔ (b.val = 1 → ¬ (x.val = 1 ↔ y.val = 1))) ∧
    (boolLeImp x y b ↔ (b.val = 1 → x.val = 1 → y.val = 1)) ∧
    (boolLtImp x y b ↔ (b.val = 1 → ¬ x.val = 1 ∧ y.val = 1)) ∧
    (boolAndImp x y b ↔ (b.val = 1 → x.val = 1 ∧ y.val = 1)) ∧
    (boolOrImp x y b ↔ (b.val = 1 → x.val = 1 ∨ y.val = 1)) :=
  ⟨boolEqImp_iff x y b hx hy hb, boolXorImp_iff x y b hx hy hb, boolLeImp_iff x y b hx hy hb,
    boolLtImp_iff x y b hx hy hb, boolAndImp_iff x y b hx hy hb, boolOrImp_iff x y b hx hy hb⟩

/-- **Constraints on arrays of Booleans**, of any length. -/
theorem _root_.MZ.C80_bool_arrays (xs ys : List V) (b : V) (hx : ∀ x ∈ xs, x.IsB) (hy : ∀ y ∈ ys, y.IsB) (hb : b.IsB) :
    (arrayBoolAnd xs b ↔ (b.val = 1 ↔ ∀ x ∈ xs, x.val = 1)) ∧
    (arrayBoolOr xs b ↔ (b.val = 1 ↔ ∃ x ∈ xs, x.val = 1)) ∧
    (arrayBoolXor xs ↔ Odd (xs.countP (fun x => x.val = 1))) ∧
    (boolClause xs ys ↔ (∃ x ∈ xs, x.val = 1) ∨ ∃ y ∈ ys, ¬ y.val = 1) ∧
    (arrayBoolAndImp xs b ↔ (b.val = 1 → ∀ x ∈ xs, x.val = 1)) ∧
    (arrayBoolOrImp xs b ↔ (b.val = 1 → ∃ x ∈ xs, x.val = 1)) :=
  ⟨arrayBoolAnd_iff xs b hx hb, arrayBoolOr_iff xs b hx hb, arrayBoolXor_iff xs hx, boolClause_iff xs ys hx hy,
    arrayBoolAndImp_iff xs b hx hb, arrayBoolOrImp_iff xs b hx hb⟩

/-! ## Floats

The tolerance makes the strict comparisons stronger than what they say: the translations are sound, and complete for
values that are equal or at least the tolerance apart. -/

/-- **Half-reified comparisons of floats** are exact; the strict one asks for a difference of the tolerance. -/
theorem _root_.MZ.C80_float_half_reified (o : Opts) (x y : F) (b : V) (he : 0 < o.eps) (hb : b.IsB) :
    (floatLeImp o x y b ↔ (b.val = 1 → x.val ≤ y.val)) ∧
    (floatEqImp o x y b ↔ (b.val = 1 → x.val = y.val)) ∧
    (floatLtImp o x y b ↔ (b.val = 1 → x.val ≤ y.val - o.eps)) ∧
    (floatLt o x y ↔ x.val ≤ y.val - o.eps) ∧
    (floatNe o x y ↔ x.val ≤ y.val - o.eps ∨ y.val + o.eps ≤ x.val) :=
  ⟨floatLeImp_iff o x y b hb, floatEqImp_iff o x y b hb, floatLtImp_iff o x y b he hb, Iff.rfl, floatNe_iff o x y he⟩

/-- **Reified comparisons of floats are sound**, for all values. -/
theorem _root_.MZ.C80_float_reified_sound (o : Opts) (x y : F) (b : V) (he : 0 < o.eps) (hb : b.IsB) :
    (floatLeReif o x y b → (b.val = 1 ↔ x.val ≤ y.val)) ∧
    (floatLtReif o x y b → (b.val = 1 ↔ x.val < y.val)) ∧
    (floatEqReif o x y b → (b.val = 1 ↔ x.val = y.val)) ∧
    (floatNeReif o x y b → (b.val = 1 ↔ x.val ≠ y.val)) ∧
    (floatNeImp o x y b → (b.val = 1 → x.val ≠ y.val)) :=
  ⟨floatLeReif_sound o x y b he hb, floatLtReif_sound o x y b he hb, floatEqReif_sound o x y b he hb,
    floatNeReif_sound o x y b he hb, floatNeImp_sound o x y b he hb⟩

/-- **Reified comparisons of floats are complete** for values that are equal or at least the tolerance apart. -/
theorem _root_.MZ.C80_float_reified_complete (o : Opts) (x y : F) (b : V) (he : 0 < o.eps) (hb : b.IsB)
    (ha : x.val = y.val ∨ x.val ≤ y.val - o.eps ∨ y.val + o.eps ≤ x.val) :
    ((b.val = 1 ↔ x.val ≤ y.val) → floatLeReif o x y b) ∧
    ((b.val = 1 ↔ x.val < y.val) → floatLtReif o x y b) ∧
    ((b.val = 1 ↔ x.val = y.val) → floatEqReif o x y b) ∧
    ((b.val = 1 ↔ x.val ≠ y.val) → floatNeReif o x y b) ∧
    ((b.val = 1 → x.val ≠ y.val) → floatNeImp o x y b) :=
  ⟨floatLeReif_complete o x y b he hb ha, floatLtReif_complete o x y b he hb ha, floatEqReif_complete o x y b he hb ha,
    floatNeReif_complete o x y b he hb ha, floatNeImp_complete o x y b he hb ha⟩

/-- **Linear comparisons of floats**: half-reified ones are exact, reified ones sound. -/
theorem _root_.MZ.C80_float_linear_sound (o : Opts) (ts : List (ℚ × F)) (c : ℚ) (b : V) (he : 0 < o.eps) (hb : b.IsB)
    (s : ℚ) (hs : s = (ts.map (fun t => t.1 * t.2.val)).sum) :
    (floatLinLt o ts c ↔ s ≤ c - o.eps) ∧
    (floatLinLeImp o ts c b ↔ (b.val = 1 → s ≤ c)) ∧
    (floatLinLtImp o ts c b ↔ (b.val = 1 → s ≤ c - o.eps)) ∧
    (floatLinEqImp o ts c b ↔ (b.val = 1 → s = c)) ∧
    (floatLinLeReif o ts c b → (b.val = 1 ↔ s ≤ c)) ∧
    (floatLinLtReif o ts c b → (b.val = 1 ↔ s < c)) ∧
    (floatLinEqReif o ts c b → (b.val = 1 ↔ s = c)) := by
  rw [hs, ← F.lin_val]
  exact ⟨Iff.rfl, floatLinLeImp_iff o ts c b hb, floatLinLtImp_iff o ts c b he hb, floatLinEqImp_iff o ts c b hb,
    floatLinLeReif_sound o ts c b he hb, floatLtReif_sound o _ _ b he hb, floatLinEqReif_sound o ts c b he hb⟩

/-- **Linear comparisons of floats are complete** for values that are equal or at least the tolerance apart. -/
theorem _root_.MZ.C80_float_linear_complete (o : Opts) (ts : List (ℚ × F)) (c : ℚ) (b : V) (he : 0 < o.eps)
    (hb : b.IsB) (s : ℚ) (hs : s = (ts.map (fun t => t.1 * t.2.val)).sum)
    (ha : s = c ∨ s ≤ c - o.eps ∨ c + o.eps ≤ s) :
    ((b.val = 1 ↔ s ≤ c) → floatLinLeReif o ts c b) ∧
    ((b.val = 1 ↔ s < c) → floatLinLtReif o ts c b) ∧
    ((b.val = 1 ↔ s = c) → floatLinEqReif o ts c b) := by
  rw [hs, ← F.lin_val] at ha ⊢
  exact ⟨floatLinLeReif_complete o ts c b he hb ha, floatLtReif_complete o (F.lin ts) (F.const c) b he hb ha,
    floatLinEqReif_complete o ts c b he hb ha⟩

/-- **Linear disequalities of floats**, unless the domains of differences are post-processed. -/
theorem _root_.MZ.C80_float_linear_ne_partial (o : Opts) (ts : List (ℚ × F)) (c : ℚ) (b : V) (he : 0 < o.eps)
    (hb : b.IsB) (ho : ¬ (o.post = true ∧ o.diff = true)) (s : ℚ) (hs : s = (ts.map (fun t => t.1 * t.2.val)).sum) :
    (floatLinNeReif o ts c b → (b.val = 1 ↔ s ≠ c)) ∧
    (floatLinNeImp o ts c b → (b.val = 1 → s ≠ c)) ∧
    (s = c ∨ s ≤ c - o.eps ∨ c + o.eps ≤ s →
      ((b.val = 1 ↔ s ≠ c) → floatLinNeReif o ts c b) ∧ ((b.val = 1 → s ≠ c) → floatLinNeImp o ts c b)) := by
  rw [hs, ← F.lin_val]
  exact ⟨floatLinNeReif_sound o ts c b he hb ho, floatLinNeImp_sound o ts c b he hb (Or.inl ho), fun ha =>
    ⟨floatLinNeReif_complete o ts c b he hb ho ha, floatLinNeImp_complete o ts c b he hb (Or.inl ho) ha⟩⟩

/-! ## What fails -/

/-- Domain post-processing, with a tolerance of one thousandth. -/
def optsPost : Opts :=
  { post := true, diff := true, aux := true, ind := false, avoidNI := false, eqOld := false, unaryNeq := 1, unaryEq := 20,
    unarySet := 20, unaryTimes := 2000, quadr := none, eps := 1 / 1000 }

/-- A float between 0 and 10. -/
def fl (v : ℚ) (h : 0 ≤ v ∧ v ≤ 10) : F := ⟨0, 10, v, h.1, h.2⟩

/-- A Boolean that is not fixed. -/
def flag (v : Bool) : V := V.bit v

theorem flag_isB (v : Bool) : (flag v).IsB := V.bit_isB v

theorem neReif_post (ts : List (ℚ × F)) (c : ℚ) (b : V) :
    floatLinNeReif optsPost ts c b = floatNeReif optsPost (F.lin ts) (F.const c) b.inv := by
  unfold floatLinNeReif; rw [if_pos (by rfl)]

theorem neImp_post (t : ℚ × F) (c : ℚ) (b : V) :
    floatLinNeImp optsPost [t] c b = floatNeImp optsPost (F.lin [t]) (F.const c) b.inv := by
  unfold floatLinNeImp isDiff; dsimp only; rw [if_pos (by rfl)]

/-- With post-processing `float_lin_ne_reif` says the opposite: `2 x != 2` is reported false for `x = 5`, and reporting it
true is rejected. -/
theorem _root_.MZ.C80_float_lin_ne_reif_fails :
    floatLinNeReif optsPost [(2, fl 5 (by norm_num))] 2 (flag false) ∧
    ¬ floatLinNeReif optsPost [(2, fl 5 (by norm_num))] 2 (flag true) := by
  have hv : (F.lin [((2 : ℚ), fl 5 (by norm_num))]).val = 10 := by rw [F.lin_val]; norm_num [fl]
  have he : 0 < optsPost.eps := by norm_num [optsPost]
  constructor
  · rw [neReif_post]
    refine floatNeReif_complete _ _ _ _ he (flag_isB _).inv ?_ ?_
    · rw [hv, F.const_val]; exact Or.inr (Or.inr (by norm_num [optsPost]))
    · rw [hv, F.const_val, V.inv_val, flag, V.bit_val]; norm_num
  · intro h
    rw [neReif_post] at h
    have := floatNeReif_sound _ _ _ _ he (flag_isB _).inv h
    rw [hv, F.const_val, V.inv_val, flag, V.bit_val] at this
    norm_num at this

/-- With post-processing `float_lin_ne_imp` constrains the wrong case: `b -> 2 x != 2` accepts `b` true with `x = 1`, and
rejects `b` false with `x = 1`. -/
theorem _root_.MZ.C80_float_lin_ne_imp_fails :
    floatLinNeImp optsPost [(2, fl 1 (by norm_num))] 2 (flag true) ∧
    ¬ floatLinNeImp optsPost [(2, fl 1 (by norm_num))] 2 (flag false) := by
  have hv : (F.lin [((2 : ℚ), fl 1 (by norm_num))]).val = 2 := by rw [F.lin_val]; norm_num [fl]
  have he : 0 < optsPost.eps := by norm_num [optsPost]
  constructor
  · rw [neImp_post]
    refine floatNeImp_complete _ _ _ _ he (flag_isB _).inv ?_ ?_
    · rw [hv, F.const_val]; exact Or.inl rfl
    · rw [V.inv_val, flag, V.bit_val]; norm_num
  · intro h
    rw [neImp_post] at h
    have := floatNeImp_sound _ _ _ _ he (flag_isB _).inv h
    rw [hv, F.const_val, V.inv_val, flag, V.bit_val] at this
    norm_num at this

/-! ## The hypotheses can be met -/

/-- An integer variable with a domain with a hole, and a Boolean. -/
def exX : V := ⟨{1, 2, 5}, 5, by decide⟩

example : (flag true).IsB ∧ ¬ (flag true).fixed ∧ 0 < optsPost.eps := by
  refine ⟨flag_isB _, by decide, by norm_num [optsPost]⟩

/-- `b <-> x = 5`, `b <-> x <= 3` and `b <-> 2 x - y <= 4` with values that satisfy them, and values that do not. -/
example : intEqReifC optsPost exX 5 (flag true) ∧ ¬ intEqReifC optsPost exX 5 (flag false) ∧
    intLeReifVC optsPost exX 3 (flag false) ∧ ¬ intLeReifVC optsPost exX 3 (flag true) ∧
    intLinLeReif optsPost [(2, exX), (-1, exX)] 4 (flag false) := by
  have hb := fun v => flag_isB v
  refine ⟨?_, ?_, ?_, ?_, ?_⟩
  · rw [intEqReifC_iff _ _ _ _ (hb _)]; decide
  · rw [intEqReifC_iff _ _ _ _ (hb _)]; decide
  · rw [intLeReifVC_iff _ _ _ _ (hb _)]; decide
  · rw [intLeReifVC_iff _ _ _ _ (hb _)]; decide
  · rw [intLinLeReif_iff _ _ _ _ (hb _)]; decide

/-- Three Booleans, two of them true. -/
example : arrayBoolOr [flag true, flag false, flag true] (flag true) ∧ ¬ arrayBoolXor [flag true, flag false, flag true] := by
  have hb : ∀ x ∈ [flag true, flag false, flag true], x.IsB := by
    intro x hx; simp at hx; rcases hx with rfl | rfl | rfl <;> exact flag_isB _
  refine ⟨?_, ?_⟩
  · rw [arrayBoolOr_iff _ _ hb (flag_isB _)]; simp [flag]
  · rw [arrayBoolXor_iff _ hb]; decide

/-- Floats that are apart. -/
example : floatLeReif optsPost (fl 2 (by norm_num)) (fl 3 (by norm_num)) (flag true) := by
  refine (C80_float_reified_complete optsPost _ _ _ (by norm_num [optsPost]) (flag_isB _) ?_).1 ?_
  · exact Or.inr (Or.inl (by norm_num [fl, optsPost]))
  · simp [flag, fl]; norm_num

end MZ.LinLib
