import Verif.LinArith.Sets
import Mathlib.Data.Fin.VecNotation
import Mathlib.Tactic.FieldSimp

/-! # C81: arithmetic, element and set membership in the linear library -/

namespace MZ.LinArith

open MZ.LinLib

variable (o : Opts)

/-- **The absolute value.**  The constraint holds of exactly the values with `y = |x|`. -/
theorem _root_.MZ.C81_abs (x y : V) (u v : F) :
    (intAbs o x y ↔ y.val = |x.val|) ∧ (floatAbs o u v ↔ v.val = |u.val|) :=
  ⟨intAbs_iff o x y, floatAbs_iff o u v⟩

theorem least_neg {α : Type} [AddCommGroup α] [LinearOrder α] [IsOrderedAddMonoid α] {n : Nat} (v : Fin (n + 1) → α) (m : α) :
    IsLeast' (fun i => -v i) (-m) ↔ (∀ i, v i ≤ m) ∧ ∃ i, m = v i := by
  unfold IsLeast'
  simp

/-- **Minimum and maximum of an array**, whatever elements the bounds rule out and whatever cuts are posted. -/
theorem _root_.MZ.C81_array_min_max (gen cuts cutgen : Bool) {n : Nat} (m : V) (x : Fin (n + 1) → V) (q : F)
    (y : Fin (n + 1) → F) :
    (arrayIntMin o gen m x ↔ (∀ i, m.val ≤ (x i).val) ∧ ∃ i, m.val = (x i).val) ∧
    (arrayIntMax o gen m x ↔ (∀ i, (x i).val ≤ m.val) ∧ ∃ i, m.val = (x i).val) ∧
    (arrayFloatMin o gen cuts cutgen q y ↔ (∀ i, q.val ≤ (y i).val) ∧ ∃ i, q.val = (y i).val) ∧
    (arrayFloatMax o gen cuts cutgen q y ↔ (∀ i, (y i).val ≤ q.val) ∧ ∃ i, q.val = (y i).val) :=
  ⟨arrayIntMinI_iff o gen m x, (arrayIntMinI_iff o gen _ _).trans (least_neg _ _),
    arrayFloatMinI_iff o gen cuts cutgen q y, (arrayFloatMinI_iff o gen cuts cutgen _ _).trans (least_neg _ _)⟩

/-- **Minimum and maximum of two variables.** -/
theorem _root_.MZ.C81_min_max (gen : Bool) (x y z : V) :
    (intMin o gen x y z ↔ z.val = min x.val y.val) ∧ (intMax o gen x y z ↔ z.val = max x.val y.val) := by
  constructor
  · unfold intMin arrayIntMin
    rw [arrayIntMinI_iff]
    simp [IsLeast', Fin.forall_fin_two, Fin.exists_fin_two]
    omega
  · unfold intMax arrayIntMax
    rw [arrayIntMinI_iff]
    simp [IsLeast', Fin.forall_fin_two, Fin.exists_fin_two]
    omega

/-- **Integer division and remainder**: the divisor is not zero, the quotient is rounded towards zero and the remainder has
the sign of the dividend. -/
theorem _root_.MZ.C81_int_div_mod (x y z : V) :
    (intDiv x y z ↔ y.val ≠ 0 ∧ z.val = x.val.tdiv y.val) ∧ (intMod x y z ↔ y.val ≠ 0 ∧ z.val = x.val.tmod y.val) := by
  unfold intDiv intMod
  simp only [divMod_iff]
  constructor
  · constructor
    · rintro ⟨q, r, ⟨h1, h2, -⟩, h3⟩; exact ⟨h1, h3.trans h2⟩
    · rintro ⟨h1, h2⟩; exact ⟨_, _, ⟨h1, rfl, rfl⟩, h2⟩
  · constructor
    · rintro ⟨q, r, ⟨h1, -, h2⟩, h3⟩; exact ⟨h1, h3.trans h2⟩
    · rintro ⟨h1, h2⟩; exact ⟨_, _, ⟨h1, rfl, rfl⟩, h2⟩

/-- **Float division**, for a divisor that is not zero. -/
theorem _root_.MZ.C81_float_div_partial (x y z : F) (hy : y.val ≠ 0) : floatDiv x y z ↔ z.val = x.val / y.val := by
  unfold floatDiv
  rw [eq_div_iff hy]
  constructor <;> intro h <;> linarith

/-- The float division alone does not exclude a divisor zero: it accepts `0.0 / 0.0 = 1.0`.  The function `/` posts
`y != 0.0` besides. -/
theorem _root_.MZ.C81_float_div_fails : ∃ x y z : F, y.val = 0 ∧ floatDiv x y z :=
  ⟨F.const 0, F.const 0, F.const 1, rfl, by simp [floatDiv]⟩

/-- **Element of an array of constants**: the index is in the index set and the element there is the value, also when the
elements are equally spaced or all equal. -/
theorem _root_.MZ.C81_element_of_constants (idx y : V) (lo hi : Int) (xs : Int → Int) (qs : Int → ℚ) (z : F)
    (bs : Int → Bool) :
    (arrayIntElement o idx lo hi xs y ↔ (lo ≤ idx.val ∧ idx.val ≤ hi) ∧ y.val = xs idx.val) ∧
    (arrayFloatElement o idx lo hi qs z ↔ (lo ≤ idx.val ∧ idx.val ≤ hi) ∧ z.val = qs idx.val) ∧
    (arrayBoolElement o idx lo hi bs y ↔ (lo ≤ idx.val ∧ idx.val ≤ hi) ∧ y.val = if bs idx.val then 1 else 0) :=
  ⟨arrayIntElement_iff o idx lo hi xs y, arrayFloatElement_iff o idx lo hi qs z, arrayIntElement_iff o idx lo hi _ y⟩

/-- **Element of an array of variables.** -/
theorem _root_.MZ.C81_element_of_variables (cuts cutgen : Bool) (idx y : V) (lo hi : Int) (xs : Int → V) (qs : Int → F)
    (z : F) :
    (arrayVarIntElement o idx lo hi xs y ↔ (lo ≤ idx.val ∧ idx.val ≤ hi) ∧ y.val = (xs idx.val).val) ∧
    (arrayVarFloatElement o cuts cutgen idx lo hi qs z ↔ (lo ≤ idx.val ∧ idx.val ≤ hi) ∧ z.val = (qs idx.val).val) ∧
    (arrayVarBoolElement o idx lo hi xs y ↔ (lo ≤ idx.val ∧ idx.val ≤ hi) ∧ y.val = (xs idx.val).val) :=
  ⟨arrayVarIntElement_iff o idx lo hi xs y, arrayVarFloatElement_iff o cuts cutgen idx lo hi qs z,
    arrayVarIntElement_iff o idx lo hi xs y⟩

/-- **The product by unary encoding and by an element constraint.** -/
theorem _root_.MZ.C81_int_times_encodings (x y z : V) :
    (intTimesUnary o x y z ↔ z.val = x.val * y.val) ∧ (intTimesUnaryNofn o x y z ↔ z.val = x.val * y.val) ∧
    (intTimesElem o x y z ↔ z.val = x.val * y.val) :=
  ⟨intTimesUnary_iff o x y z, intTimesUnaryNofn_iff o x y z, intTimesElem_iff o x y z⟩

/-- **The product.**  Missing: the product of two variables with domains `0..1` when the result may be negative. -/
theorem _root_.MZ.C81_int_times_partial (same : Bool) (x y z : V) (hs : same = true → x.val = y.val)
    (hz : Finset.Icc 0 1 = x.dom → Finset.Icc 0 1 = y.dom → 0 ≤ z.val) :
    intTimes o same x y z ↔ z.val = x.val * y.val := intTimes_iff o same x y z hs hz

/-- With domains `0..1` the product is a conjunction, which accepts `0 * 0 = -1`. -/
theorem _root_.MZ.C81_int_times_fails : ∃ x y z : V, intTimes o false x y z ∧ z.val ≠ x.val * y.val := by
  refine ⟨V.icc 0 1 0 (by omega) (by omega), V.icc 0 1 0 (by omega) (by omega), V.icc (-1) 1 (-1) (by omega) (by omega), ?_, ?_⟩
  · unfold intTimes
    have hf : ¬ (V.icc 0 1 0 (by omega) (by omega)).fixed := by
      intro h
      have h1 : (Finset.Icc (0 : Int) 1).card = 1 := h
      simp at h1
    rw [if_neg hf, if_neg hf, if_neg (by simp), if_pos ⟨rfl, rfl⟩]
    simp [boolAndInt, V.icc]
  · simp [V.icc]

/-- **Membership in a constant set**, with gaps or without, alone, reified, half-reified, and in the form with subintervals. -/
theorem _root_.MZ.C81_set_in (x : V) (s : Finset Int) (b : V) (hb : b.IsB) :
    (setIn o x s ↔ x.val ∈ s) ∧ (setInReif o x s b ↔ (b.val = 1 ↔ x.val ∈ s)) ∧
    (setInImp o x s b ↔ (b.val = 1 → x.val ∈ s)) ∧ (altSetInReif x s b ↔ (b.val = 1 ↔ x.val ∈ s)) :=
  ⟨setIn_iff o x s, setInReif_iff o x s b hb, setInImp_iff o x s b hb, altSetInReif_iff x s b⟩

/-- **The subintervals of a set.**  As many begin as end, and a value is in exactly one of them if it is in the set and in
none otherwise. -/
theorem _root_.MZ.C81_subintervals (v : V) (s : Finset Int) :
    (runEnds s).length = (runStarts s).length ∧ varInBigSet v s = some (if v.val ∈ s then 1 else 0) :=
  ⟨(runs_set v.val s).1, varInBigSet_eq v s⟩

/-- **Encodings of two variables and of an array.**  The element for two values is 1 if the variables take them, 0 otherwise;
the matrix of an array has the value of each variable in its row. -/
theorem _root_.MZ.C81_encodings (x y : V) (pp : Int → Int → Int) {ι : Type} (xs : ι → V) (p : ι → Int → Int) :
    (EqEncode2 o x y pp ↔ ∀ i ∈ Finset.Icc x.lb x.ub, ∀ j ∈ Finset.Icc y.lb y.ub,
      pp i j = if i = x.val ∧ j = y.val then 1 else 0) ∧
    (EqEncodeArr o xs p ↔ ∀ i j, p i j = if j = (xs i).val then 1 else 0) :=
  ⟨eqEncode2_iff o x y pp, eqEncodeArr_iff o xs p⟩

/-! ## Examples -/

example : intDiv (V.icc (-9) 9 (-7) (by omega) (by omega)) (V.icc (-3) 3 2 (by omega) (by omega))
    (V.icc (-9) 9 (-3) (by omega) (by omega)) :=
  ((C81_int_div_mod _ _ _).1).2 ⟨by simp [V.icc], by simp [V.icc]⟩

example : ¬ intMod (V.icc (-9) 9 (-7) (by omega) (by omega)) (V.icc (-3) 3 2 (by omega) (by omega))
    (V.icc (-9) 9 1 (by omega) (by omega)) := by
  rw [(C81_int_div_mod _ _ _).2]
  simp [V.icc]

example : ∃ x y z : V, (Finset.Icc 0 1 = x.dom → Finset.Icc 0 1 = y.dom → 0 ≤ z.val) ∧ z.val = x.val * y.val ∧ z.val = -6 :=
  ⟨V.icc (-3) 3 (-3) (by omega) (by omega), V.icc 0 5 2 (by omega) (by omega), V.icc (-9) 9 (-6) (by omega) (by omega),
    fun h => by
      have : (-3 : Int) ∈ Finset.Icc (0 : Int) 1 := by rw [h]; simp [V.icc]
      simp at this,
    by simp [V.icc], by simp [V.icc]⟩

example (o : Opts) : setInReif o (V.icc 0 20 8 (by omega) (by omega)) {1, 2, 3, 7, 9, 10} (V.bit false) :=
  ((C81_set_in o _ _ _ (V.bit_isB _)).2.1).2 (by simp [V.icc])

end MZ.LinArith
