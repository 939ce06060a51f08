import Verif.OptTypes.Model
import Verif.OptTypes.Spec
import Mathlib.Order.Bounds.Basic
import Mathlib.Tactic.SplitIfs
import Mathlib.Tactic.Push
import Mathlib.Algebra.BigOperators.Group.List.Basic
import Mathlib.Data.Set.Insert

/-!
# C85: operations on option types mean what the documentation says
-/

namespace MZ.OptTypes

open Spec

variable {α β : Type}

theorem mean_mk_true (v : α) : (OV.mk true v).mean = some v := rfl
theorem mean_mk_false (v : α) : (OV.mk false v).mean = none := rfl
theorem dflt_mk_true (v d : α) : (OV.mk true v).dflt d = v := rfl
theorem dflt_mk_false (v d : α) : (OV.mk false v).dflt d = d := rfl

/-! ## The representation -/

/-- The values an optional variable can be given are absent and the values of its domain, in both representations. -/
theorem _root_.MZ.C85_encoding (az : Bool) (D : Set Int) (o : Option Int) :
    (∃ x, Rep az D x ∧ x.mean = o) ↔ (o = none ∨ ∃ v, v ∈ D ∧ o = some v) := by
  constructor
  · rintro ⟨⟨b, v⟩, hx, rfl⟩
    cases b with
    | false => exact Or.inl rfl
    | true =>
      refine Or.inr ⟨v, ?_, rfl⟩
      rcases hx with ⟨-, h⟩ | ⟨-, hv, hc⟩
      · simp at h
      · rcases hv with hv | ⟨ha, rfl⟩
        · exact hv
        · by_contra h0
          have := (hc ha).2 (by rintro (h | h); · rw [ha] at h; cases h
                                · exact h0 h)
          simp at this
  · intro h
    by_cases hD : D = ∅
    · refine ⟨⟨false, 0⟩, Or.inl ⟨hD, rfl⟩, ?_⟩
      rcases h with rfl | ⟨v, hv, rfl⟩
      · rfl
      · rw [hD] at hv; exact absurd hv (by simp)
    · rcases h with rfl | ⟨v, hv, rfl⟩
      · cases az with
        | true => exact ⟨⟨false, 0⟩, Or.inr ⟨hD, Or.inr ⟨rfl, rfl⟩, fun _ => ⟨fun _ => Or.inr rfl, fun _ => by simp⟩⟩, rfl⟩
        | false =>
          obtain ⟨w, hw⟩ := Set.nonempty_iff_ne_empty.2 hD
          exact ⟨⟨false, w⟩, Or.inr ⟨hD, Or.inl hw, fun h => by cases h⟩, rfl⟩
      · refine ⟨⟨true, v⟩, Or.inr ⟨hD, Or.inl hv, fun _ => ⟨fun _ => Or.inl rfl, fun h => ⟨fun _ h0 => ?_, fun _ => rfl⟩⟩⟩, rfl⟩
        exact h (Or.inr (by simpa using (show v = 0 from h0) ▸ hv))

/-- With zero standing for absent, which is the default, each value has exactly one representation, so that no solution is found
twice. -/
theorem _root_.MZ.C85_encoding_unique (D : Set Int) (x y : OV Int) (hx : Rep true D x) (hy : Rep true D y)
    (h : x.mean = y.mean) : x = y := by
  have key : ∀ z : OV Int, Rep true D z → z.occ = false → z.val = 0 := by
    rintro ⟨b, v⟩ hz hb
    subst hb
    rcases hz with ⟨-, h⟩ | ⟨-, -, hc⟩
    · simpa using h
    · by_cases h0 : hadZero true D
      · simpa using (hc rfl).1 h0
      · have := (hc rfl).2 h0
        simpa using this
  obtain ⟨b, v⟩ := x
  obtain ⟨c, w⟩ := y
  cases b <;> cases c
  · have h1 := key _ hx rfl
    have h2 := key _ hy rfl
    simp only at h1 h2
    rw [h1, h2]
  · cases h
  · cases h
  · cases h; rfl

/-- `had_zero` tells whether the variable may occur with the value zero, or zero does not stand for absent. -/
theorem _root_.MZ.C85_had_zero (az : Bool) (D : Set Int) :
    hadZero az D ↔ (az = false ∨ ∃ x, Rep az D x ∧ x.mean = some 0) := by
  rw [C85_encoding az D (some 0)]
  unfold hadZero
  simp

/-- Aliased variables are equal as optional values, and where zero stands for absent the converse holds. -/
theorem _root_.MZ.C85_alias (D E : Set Int) (x y : OV Int) (hx : Rep true D x) (hy : Rep true E y) :
    (aliasEq x y = true ↔ x.mean = y.mean) ∧ (∀ a b : OV Int, aliasEq a b = true → a.mean = b.mean) := by
  have key : ∀ (D : Set Int) (z : OV Int), Rep true D z → z.occ = false → z.val = 0 := by
    intro D z hz hb
    have h0 : Rep true D ⟨false, 0⟩ := by
      by_cases hD : D = ∅
      · exact Or.inl ⟨hD, rfl⟩
      · exact Or.inr ⟨hD, Or.inr ⟨rfl, rfl⟩, fun _ => ⟨fun _ => Or.inr rfl, fun _ => by simp⟩⟩
    have := C85_encoding_unique D z _ hz h0 (by unfold OV.mean; rw [hb]; rfl)
    rw [this]
  have fwd : ∀ a b : OV Int, aliasEq a b = true → a.mean = b.mean := by
    intro a b h
    simp only [aliasEq, Bool.and_eq_true, decide_eq_true_eq, beq_iff_eq] at h
    simp only [OV.mean, h.1, h.2]
  refine ⟨⟨fwd x y, fun h => ?_⟩, fwd⟩
  obtain ⟨b, v⟩ := x
  obtain ⟨c, w⟩ := y
  cases b <;> cases c
  · have h1 := key _ _ hx rfl
    have h2 := key _ _ hy rfl
    simp only at h1 h2
    simp [aliasEq, h1, h2]
  · cases h
  · cases h
  · cases h; simp [aliasEq]

example : Rep true {1, 2} ⟨false, 0⟩ ∧ Rep true {1, 2} ⟨true, 2⟩ ∧ Rep true {0, 2} ⟨true, 0⟩ ∧ Rep true {0, 2} ⟨false, 0⟩ := by
  have h1 : ({1, 2} : Set Int) ≠ ∅ := (Set.insert_nonempty _ _).ne_empty
  have h2 : ({0, 2} : Set Int) ≠ ∅ := (Set.insert_nonempty _ _).ne_empty
  refine ⟨Or.inr ⟨h1, Or.inr ⟨rfl, rfl⟩, fun _ => ⟨fun _ => Or.inr rfl, fun _ => by simp⟩⟩,
    Or.inr ⟨h1, Or.inl (by simp), fun _ => ⟨fun _ => Or.inl rfl, fun _ => by simp⟩⟩,
    Or.inr ⟨h2, Or.inl (by simp), fun _ => ⟨fun _ => Or.inl rfl, fun h => absurd (Or.inr (by simp)) h⟩⟩,
    Or.inr ⟨h2, Or.inl (by simp), fun _ => ⟨fun _ => Or.inr rfl, fun h => absurd (Or.inr (by simp)) h⟩⟩⟩

/-! ## Comparisons -/

/-- The relation a comparison stands for. -/
def Cmp.rel : Cmp → Int → Int → Prop
  | .lt, a, b => a < b
  | .gt, a, b => a > b
  | .le, a, b => a ≤ b
  | .ge, a, b => a ≥ b
  | .weq, a, b => a = b
  | .wne, a, b => a ≠ b

theorem Cmp.eval_iff (o : Cmp) (a b : Int) : o.eval a b = true ↔ o.rel a b := by
  cases o <;> simp [Cmp.eval, Cmp.rel]

/-- `<`, `>`, `<=`, `>=`, `~=` and `~!=` hold iff a side is absent or the values compare so; for parameters they are also always
defined. -/
theorem _root_.MZ.C85_compare (o : Cmp) :
    (∀ x y : OV Int, cmpV o x y = true ↔ Weak o.rel x.mean y.mean) ∧
    (∀ a b : Option Int, ∃ r, cmpP o a b = some r ∧ (r = true ↔ Weak o.rel a b)) := by
  constructor
  · rintro ⟨b, v⟩ ⟨c, w⟩
    cases b <;> cases c <;> simp [cmpV, OV.absent, OV.mean, Weak, Cmp.eval_iff]
  · intro a b
    cases a <;> cases b <;> simp [cmpP, pOr, pBin, pabsent, pdeopt, Weak, Cmp.eval_iff]

/-- `=` and `!=` treat absent as a value of its own: two sides are equal iff both are absent or both occur with the same value. -/
theorem _root_.MZ.C85_equality [DecidableEq α] :
    (∀ x y : OV α, eqV x y = true ↔ x.mean = y.mean) ∧ (∀ x y : OV α, neV x y = true ↔ x.mean ≠ y.mean) ∧
    (∀ (x : OV α) (v : α), eqV1 x v = true ↔ x.mean = some v) ∧
    (∀ a b : Option α, ∃ r, eqP a b = some r ∧ (r = true ↔ a = b)) := by
  refine ⟨?_, ?_, ?_, ?_⟩
  · rintro ⟨b, v⟩ ⟨c, w⟩
    cases b <;> cases c <;> simp [eqV, OV.absent, OV.mean]
  · rintro ⟨b, v⟩ ⟨c, w⟩
    cases b <;> cases c <;> simp [neV, OV.absent, OV.mean]
  · rintro ⟨b, v⟩ w
    cases b <;> simp [eqV1, OV.mean]
  · intro a b
    cases a <;> cases b <;> simp [eqP, pOr, pAnd, pBin, pabsent, pdeopt]

/-! ## Logic -/

/-- Absent is the neutral element of `/\` and of `\/`, and `->`, `<-` and `<->` hold if a side is absent; `not` keeps absent.
For parameters they are also always defined. -/
theorem _root_.MZ.C85_logic (x y : OV Bool) (a b : Option Bool) :
    (andV x y = true ↔ (x.mean ≠ some false ∧ y.mean ≠ some false)) ∧
    (orV x y = true ↔ (x.mean = some true ∨ y.mean = some true)) ∧
    (implV x y = true ↔ Weak (fun u v => u = true → v = true) x.mean y.mean) ∧
    (rimplV x y = true ↔ Weak (fun u v => v = true → u = true) x.mean y.mean) ∧
    (iffV x y = true ↔ Weak (fun u v => u = v) x.mean y.mean) ∧
    (boolXorV x y = true ↔ Weak (fun u v => u ≠ v) x.mean y.mean) ∧
    notV x = x.mean.map not ∧
    (∃ r, andP a b = some r ∧ (r = true ↔ (a ≠ some false ∧ b ≠ some false))) ∧
    (∃ r, orP a b = some r ∧ (r = true ↔ (a = some true ∨ b = some true))) ∧
    (∃ r, implP a b = some r ∧ (r = true ↔ Weak (fun u v => u = true → v = true) a b)) ∧
    (∃ r, iffP a b = some r ∧ (r = true ↔ Weak (fun u v => u = v) a b)) := by
  obtain ⟨p, v⟩ := x
  obtain ⟨q, w⟩ := y
  refine ⟨?_, ?_, ?_, ?_, ?_, ?_, ?_, ?_, ?_, ?_, ?_⟩
  · cases p <;> cases q <;> cases v <;> cases w <;> simp [andV, OV.absent, OV.mean]
  · cases p <;> cases q <;> cases v <;> cases w <;> simp [orV, OV.mean]
  · cases p <;> cases q <;> cases v <;> cases w <;> simp [implV, OV.absent, OV.mean, Weak]
  · cases p <;> cases q <;> cases v <;> cases w <;> simp [rimplV, OV.absent, OV.mean, Weak]
  · cases p <;> cases q <;> cases v <;> cases w <;> simp [iffV, OV.absent, OV.mean, Weak]
  · cases p <;> cases q <;> cases v <;> cases w <;> simp [boolXorV, OV.absent, OV.mean, Weak]
  · cases p <;> simp [notV, OV.absent, OV.mean]
  · rcases a with _ | _ | _ <;> rcases b with _ | _ | _ <;> simp [andP, pAnd, pOr, pabsent, pdeopt]
  · rcases a with _ | _ | _ <;> rcases b with _ | _ | _ <;> simp [orP, pAnd, pOr, pabsent, pdeopt]
  · rcases a with _ | _ | _ <;> rcases b with _ | _ | _ <;> simp [implP, pOr, pBin, pabsent, pdeopt, Weak]
  · rcases a with _ | _ | _ <;> rcases b with _ | _ | _ <;> simp [iffP, pOr, pBin, pabsent, pdeopt, Weak]

/-- `x xor y` is right if both sides occur.  What is missing: an absent side, see `C85_xor_fails`. -/
theorem _root_.MZ.C85_xor_partial (u v : Bool) :
    xorV ⟨true, u⟩ ⟨true, v⟩ = Bool.xor u v ∧ xorP (some u) (some v) = some (Bool.xor u v) := by
  cases u <;> cases v <;> exact ⟨rfl, rfl⟩

/-- **Deviation.**  The body of `xor` for optional operands lacks a pair of parentheses.  With an absent left side the result is
the negation of the right side and not true, although `bool_xor` and all the other weak operators give true; with the sides
exchanged the result depends on the hidden value of the absent variable, although `xor` is declared commutative; and on
parameters an absent right side makes it undefined. -/
theorem _root_.MZ.C85_xor_fails :
    (∃ x y : OV Bool, x.mean = none ∧ y.mean = some true ∧ xorV x y = false ∧ boolXorV x y = true) ∧
    (∃ x y z : OV Bool, y.mean = z.mean ∧ xorV x y ≠ xorV x z) ∧
    (∃ x y : OV Bool, xorV x y ≠ xorV y x) ∧
    (∀ a : Option Bool, xorP a none = none) :=
  ⟨⟨⟨false, false⟩, ⟨true, true⟩, rfl, rfl, rfl, rfl⟩,
   ⟨⟨true, true⟩, ⟨false, false⟩, ⟨false, true⟩, rfl, by decide⟩,
   ⟨⟨true, true⟩, ⟨false, false⟩, by decide⟩,
   fun a => by rcases a with _ | _ | _ <;> rfl⟩

/-- `forall` and `exists` skip absent elements. -/
theorem _root_.MZ.C85_quantifiers (xs : List (OV Bool)) :
    (forallV xs = true ↔ ∀ x ∈ xs, x.mean ≠ some false) ∧ (existsV xs = true ↔ ∃ x ∈ xs, x.mean = some true) := by
  have h1 : ∀ x : OV Bool, (x.absent || x.val) = true ↔ x.mean ≠ some false := by
    rintro ⟨b, v⟩
    cases b <;> cases v <;> simp [OV.absent, OV.mean]
  have h2 : ∀ x : OV Bool, (x.occ && x.val) = true ↔ x.mean = some true := by
    rintro ⟨b, v⟩
    cases b <;> cases v <;> simp [OV.mean]
  constructor
  · simp only [forallV, List.all_eq_true, h1]
  · simp only [existsV, List.any_eq_true, h2]

theorem xorall_odd (l : List Bool) : xorall l = true ↔ l.count true % 2 = 1 := by
  induction l with
  | nil => simp [xorall]
  | cons a l ih =>
    have hstep : xorall (a :: l) = Bool.xor a (xorall l) := rfl
    rw [hstep]
    cases a with
    | false =>
      rw [Bool.false_xor, ih]
      simp [List.count_cons]
    | true =>
      rw [Bool.true_xor, Bool.not_eq_true', ← Bool.not_eq_true, ih, List.count_cons]
      simp
      omega

/-- `xorall`, `iffall` and `clause` hold if an element is absent; otherwise `xorall` holds iff an odd number of elements is true,
`iffall` iff an even number is, and `clause` iff an element of the first array is true or one of the second is false. -/
theorem _root_.MZ.C85_folds (xs ys : List (OV Bool)) :
    (xorallV xs = true ↔ ((∃ x ∈ xs, x.mean = none) ∨ (xs.map OV.mean).count (some true) % 2 = 1)) ∧
    (iffallV xs = true ↔ ((∃ x ∈ xs, x.mean = none) ∨ (xs.map OV.mean).count (some true) % 2 = 0)) ∧
    (clauseV xs ys = true ↔ ((∃ x ∈ xs, x.mean = none) ∨ (∃ y ∈ ys, y.mean = none) ∨
      (∃ x ∈ xs, x.mean = some true) ∨ ∃ y ∈ ys, y.mean = some false)) := by
  have habs : ∀ l : List (OV Bool), l.any OV.absent = true ↔ ∃ x ∈ l, x.mean = none := by
    intro l
    rw [List.any_eq_true]
    have : ∀ x : OV Bool, x.absent = true ↔ x.mean = none := by
      rintro ⟨b, v⟩; cases b <;> simp [OV.absent, OV.mean]
    simp only [this]
  have hcount : ∀ l : List (OV Bool), (¬ ∃ x ∈ l, x.mean = none) →
      (l.map OV.val).count true = (l.map OV.mean).count (some true) := by
    intro l
    induction l with
    | nil => intro _; rfl
    | cons a l ih =>
      intro h
      have ha : a.mean ≠ none := fun h' => h ⟨a, by simp, h'⟩
      have hl : ¬ ∃ x ∈ l, x.mean = none := fun ⟨x, hx, h'⟩ => h ⟨x, by simp [hx], h'⟩
      obtain ⟨b, v⟩ := a
      cases b with
      | false => exact absurd rfl ha
      | true =>
        rw [List.map_cons, List.map_cons, List.count_cons, List.count_cons, ih hl]
        cases v <;> simp [OV.mean]
  refine ⟨?_, ?_, ?_⟩
  · unfold xorallV
    rw [Bool.or_eq_true, habs]
    by_cases h : ∃ x ∈ xs, x.mean = none
    · simp only [h, true_or]
    · rw [xorall_odd, hcount xs h]
  · unfold iffallV
    rw [Bool.or_eq_true, habs]
    by_cases h : ∃ x ∈ xs, x.mean = none
    · simp only [h, true_or]
    · rw [xorall_odd, List.count_append, hcount xs h]
      have : List.count true [true] = 1 := rfl
      rw [this]
      have h2 : (List.count (some true) (xs.map OV.mean) + 1) % 2 = 1 ↔ List.count (some true) (xs.map OV.mean) % 2 = 0 := by omega
      rw [h2]
  · unfold clauseV
    simp only [Bool.or_eq_true, habs]
    by_cases hx : ∃ x ∈ xs, x.mean = none
    · simp only [hx, true_or]
    by_cases hy : ∃ y ∈ ys, y.mean = none
    · simp only [hy, true_or, or_true]
    have hval : ∀ (l : List (OV Bool)), (¬ ∃ x ∈ l, x.mean = none) → ∀ x ∈ l, x.mean = some x.val := by
      intro l h x hx
      have : x.mean ≠ none := fun h' => h ⟨x, hx, h'⟩
      obtain ⟨b, v⟩ := x
      cases b
      · exact absurd rfl this
      · rfl
    simp only [hx, hy, false_or, List.any_map, List.any_eq_true, Function.comp, id]
    refine or_congr ⟨?_, ?_⟩ ⟨?_, ?_⟩
    · rintro ⟨x, hxm, h⟩
      exact ⟨x, hxm, by rw [hval xs hx x hxm, h]⟩
    · rintro ⟨x, hxm, h⟩
      rw [hval xs hx x hxm] at h
      exact ⟨x, hxm, Option.some.inj h⟩
    · rintro ⟨x, hxm, h⟩
      refine ⟨x, hxm, by rw [hval ys hy x hxm]; simpa using h⟩
    · rintro ⟨x, hxm, h⟩
      rw [hval ys hy x hxm] at h
      exact ⟨x, hxm, by simpa using h⟩

example : xorallV [⟨true, true⟩, ⟨true, false⟩] = true ∧ iffallV [⟨true, true⟩, ⟨true, true⟩] = true ∧
    clauseV [⟨true, false⟩] [⟨true, true⟩] = false := by decide

/-! ## Arithmetic -/

/-- `+` and `*` replace absent by 0 and 1; `-` and `div` return absent if the left side is absent and the left side if only the
right one is; `~*`, `~div` and `mod` return absent if a side is; `-x` and `abs(x)` keep absent.  A division is undefined iff both
sides occur and the right one is 0. -/
theorem _root_.MZ.C85_arithmetic (x y : OV Int) :
    addV x y = x.mean.getD 0 + y.mean.getD 0 ∧ mulV x y = x.mean.getD 1 * y.mean.getD 1 ∧
    some (subV x y) = leftOp (fun a b => some (a - b)) x.mean y.mean ∧
    subP x.mean y.mean = leftOp (fun a b => some (a - b)) x.mean y.mean ∧
    (∀ a, subV1 a y = a - y.mean.getD 0) ∧
    wmulV x y = weakOp (· * ·) x.mean y.mean ∧
    divV x y = leftOp (fun a b => if b = 0 then none else some (a.tdiv b)) x.mean y.mean ∧
    wdivV x y = weakPart (fun a b => if b = 0 then none else some (a.tdiv b)) x.mean y.mean ∧
    modV x y = weakPart (fun a b => if b = 0 then none else some (a.tmod b)) x.mean y.mean ∧
    negV x = x.mean.map (fun a => -a) ∧ absV x = x.mean.map (fun a => max a (-a)) := by
  obtain ⟨p, v⟩ := x
  obtain ⟨q, w⟩ := y
  have habs : ((v.natAbs : Int)) = max v (-v) := by omega
  cases p <;> cases q <;>
    simp [addV, mulV, subV, subP, subV1, wmulV, divV, wdivV, modV, negV, absV, OV.mean, OV.absent, leftOp, weakOp, weakPart,
      pabsent, pdeopt, pBin, idiv, imod, habs]

/-- `~+` and `~-`: the result variable can always be given a value, and it is the sum (difference) if both sides occur and absent
otherwise, whatever the bounds of the arguments are. -/
theorem _root_.MZ.C85_weak_add (az : Bool) (lx ux ly uy : Option Int) (x y : OV Int)
    (hx : ∀ v, x.mean = some v → v ∈ range lx ux) (hy : ∀ v, y.mean = some v → v ∈ range ly uy) :
    (∃ r, waddC az lx ux ly uy x y r) ∧ (∀ r, waddC az lx ux ly uy x y r → r.mean = weakOp (· + ·) x.mean y.mean) ∧
    (∃ r, wsubC az lx ux ly uy x y r) ∧ (∀ r, wsubC az lx ux ly uy x y r → r.mean = weakOp (· - ·) x.mean y.mean) := by
  have mk : ∀ (D : Set Int) (f : Int → Int → Int), (x.occ = true → y.occ = true → f x.val y.val ∈ D) →
      ∃ r, Rep az D r ∧ ((x.absent || y.absent) = true → r.absent = true) ∧
        (x.absent = true ∨ y.absent = true ∨ eqV1 r (f x.val y.val) = true) := by
    intro D f hD
    obtain ⟨p, v⟩ := x
    obtain ⟨q, w⟩ := y
    have none_case : ∃ r, Rep az D r ∧ r.mean = none := (C85_encoding az D none).2 (Or.inl rfl)
    obtain ⟨r0, hr0, hm0⟩ := none_case
    have ha0 : r0.absent = true := by
      obtain ⟨b, u⟩ := r0
      cases b
      · rfl
      · cases hm0
    cases p
    · exact ⟨r0, hr0, fun _ => ha0, Or.inl rfl⟩
    · cases q
      · exact ⟨r0, hr0, fun _ => ha0, Or.inr (Or.inl rfl)⟩
      · obtain ⟨r, hr, hm⟩ := (C85_encoding az D (some (f v w))).2 (Or.inr ⟨_, hD rfl rfl, rfl⟩)
        exact ⟨r, hr, fun h => by simp [OV.absent] at h, Or.inr (Or.inr ((C85_equality.2.2.1 r _).2 hm))⟩
  have sound : ∀ (f : Int → Int → Int) (r : OV Int), ((x.absent || y.absent) = true → r.absent = true) →
      (x.absent = true ∨ y.absent = true ∨ eqV1 r (f x.val y.val) = true) → r.mean = weakOp f x.mean y.mean := by
    intro f r h1 h2
    obtain ⟨p, v⟩ := x
    obtain ⟨q, w⟩ := y
    have habs : r.absent = true → r.mean = none := by
      obtain ⟨b, u⟩ := r
      cases b
      · intro _; rfl
      · intro h; cases h
    cases p
    · rw [habs (h1 rfl)]; rfl
    · cases q
      · rw [habs (h1 rfl)]; rfl
      · have : eqV1 r (f v w) = true := by simpa [OV.absent] using h2
        rw [(C85_equality.2.2.1 r _).1 this]; rfl
  refine ⟨?_, fun r hr => sound _ r hr.2.1 hr.2.2, ?_, fun r hr => sound _ r hr.2.1 hr.2.2⟩
  · refine mk _ (· + ·) fun h1 h2 => ?_
    have hx' := hx x.val (by simp [OV.mean, h1])
    have hy' := hy y.val (by simp [OV.mean, h2])
    refine ⟨fun a ha => ?_, fun b hb => ?_⟩
    · cases lx <;> cases ly <;> simp only [boundAdd, Option.some.injEq, reduceCtorEq] at ha
      have := hx'.1 _ rfl
      have := hy'.1 _ rfl
      show a ≤ x.val + y.val
      omega
    · cases ux <;> cases uy <;> simp only [boundAdd, Option.some.injEq, reduceCtorEq] at hb
      have := hx'.2 _ rfl
      have := hy'.2 _ rfl
      show x.val + y.val ≤ b
      omega
  · refine mk _ (· - ·) fun h1 h2 => ?_
    have hx' := hx x.val (by simp [OV.mean, h1])
    have hy' := hy y.val (by simp [OV.mean, h2])
    refine ⟨fun a ha => ?_, fun b hb => ?_⟩
    · cases lx <;> cases uy <;> simp only [boundSub, Option.some.injEq, reduceCtorEq] at ha
      have := hx'.1 _ rfl
      have := hy'.2 _ rfl
      show a ≤ x.val - y.val
      omega
    · cases ux <;> cases ly <;> simp only [boundSub, Option.some.injEq, reduceCtorEq] at hb
      have := hx'.2 _ rfl
      have := hy'.1 _ rfl
      show x.val - y.val ≤ b
      omega

/-! ## Arrays -/

/-- `sum` and `product` range over the elements that occur, `count` counts the elements that occur and are true. -/
theorem _root_.MZ.C85_sum (xs : List (OV Int)) (bs : List (OV Bool)) :
    sumV xs = (xs.filterMap OV.mean).sum ∧ productV xs = (xs.filterMap OV.mean).prod ∧
    countV bs = (bs.map OV.mean).count (some true) := by
  refine ⟨?_, ?_, ?_⟩
  · unfold sumV
    induction xs with
    | nil => rfl
    | cons a l ih =>
      obtain ⟨b, v⟩ := a
      rw [List.map_cons, List.filterMap_cons]
      cases b <;> simp [ih, mean_mk_true, mean_mk_false, dflt_mk_true, dflt_mk_false]
  · unfold productV
    induction xs with
    | nil => rfl
    | cons a l ih =>
      obtain ⟨b, v⟩ := a
      rw [List.map_cons, List.filterMap_cons]
      cases b <;> simp [ih, mean_mk_true, mean_mk_false, dflt_mk_true, dflt_mk_false]
  · unfold countV
    induction bs with
    | nil => rfl
    | cons a l ih =>
      obtain ⟨b, v⟩ := a
      rw [List.map_cons, List.sum_cons, ih, List.map_cons, List.count_cons]
      cases b <;> cases v <;> simp [OV.dflt, OV.mean] <;> omega

theorem occurring_iff (xs : List (OV Int)) (v : Int) :
    v ∈ occurring (xs.map OV.mean) ↔ ∃ x ∈ xs, x.occ = true ∧ x.val = v := by
  unfold occurring
  simp only [Set.mem_setOf_eq, List.mem_map]
  refine exists_congr fun x => and_congr_right fun _ => ?_
  obtain ⟨b, w⟩ := x
  cases b <;> simp [OV.mean]

/-- `min` is the least value that occurs and is undefined iff none does; `min_weak` is absent instead.  The same holds of `max`
and `max_weak`.  The only assumption is that the computed bound is one. -/
theorem _root_.MZ.C85_min_max (ub lb : Int) (xs : List (OV Int))
    (hu : ∀ v ∈ occurring (xs.map OV.mean), v ≤ ub) (hl : ∀ v ∈ occurring (xs.map OV.mean), lb ≤ v) :
    (∀ m, minV ub xs = some m ↔ IsLeast (occurring (xs.map OV.mean)) m) ∧
    (∀ m, maxV lb xs = some m ↔ IsGreatest (occurring (xs.map OV.mean)) m) ∧
    (∀ m, minWeakV ub xs = some m ↔ IsLeast (occurring (xs.map OV.mean)) m) ∧
    (∀ m, maxWeakV lb xs = some m ↔ IsGreatest (occurring (xs.map OV.mean)) m) ∧
    (minWeakV ub xs = none ↔ occurring (xs.map OV.mean) = ∅) ∧ (maxWeakV lb xs = none ↔ occurring (xs.map OV.mean) = ∅) := by
  have hmin : ∀ m, minV ub xs = some m ↔ IsLeast (occurring (xs.map OV.mean)) m := by
    intro m
    unfold minV
    dsimp only
    split_ifs with h
    · rw [List.any_eq_true] at h
      obtain ⟨x0, hx0, ho⟩ := h
      rw [List.min?_eq_some_iff (xs := xs.map fun x => x.dflt (max 0 ub))]
      have hx0m : x0.val ∈ occurring (xs.map OV.mean) := (occurring_iff xs _).2 ⟨x0, hx0, ho, rfl⟩
      constructor
      · rintro ⟨hmem, hle⟩
        have hm0 : m ≤ x0.val := by
          have := hle (x0.dflt (max 0 ub)) (List.mem_map.2 ⟨x0, hx0, rfl⟩)
          simpa [OV.dflt, ho] using this
        obtain ⟨x, hx, hxm⟩ := List.mem_map.1 hmem
        have hlow : ∀ v ∈ occurring (xs.map OV.mean), m ≤ v := by
          intro v hv
          obtain ⟨z, hz, hzo, rfl⟩ := (occurring_iff xs v).1 hv
          have := hle (z.dflt (max 0 ub)) (List.mem_map.2 ⟨z, hz, rfl⟩)
          simpa [OV.dflt, hzo] using this
        refine ⟨?_, fun v hv => hlow v hv⟩
        by_cases hxo : x.occ = true
        · refine (occurring_iff xs m).2 ⟨x, hx, hxo, ?_⟩
          simpa [OV.dflt, hxo] using hxm
        · have hmu : m = max 0 ub := by
            have hxo' : x.occ = false := by simpa using hxo
            simpa [OV.dflt, hxo'] using hxm.symm
          have h1 := hu _ hx0m
          have : m = x0.val := by omega
          rw [this]; exact hx0m
      · rintro ⟨hmem, hlow⟩
        obtain ⟨x, hx, hxo, rfl⟩ := (occurring_iff xs m).1 hmem
        refine ⟨List.mem_map.2 ⟨x, hx, by simp [OV.dflt, hxo]⟩, ?_⟩
        intro b hb
        obtain ⟨z, hz, rfl⟩ := List.mem_map.1 hb
        by_cases hzo : z.occ = true
        · simpa [OV.dflt, hzo] using hlow ((occurring_iff xs _).2 ⟨z, hz, hzo, rfl⟩)
        · have := hu _ hmem
          have hzo' : z.occ = false := by simpa using hzo
          simp only [OV.dflt, hzo', Bool.false_eq_true, if_false]
          omega
    · refine ⟨fun h' => absurd h' (by simp), fun h' => ?_⟩
      obtain ⟨x, hx, hxo, -⟩ := (occurring_iff xs m).1 h'.1
      exact absurd (List.any_eq_true.2 ⟨x, hx, hxo⟩) h
  have hmax : ∀ m, maxV lb xs = some m ↔ IsGreatest (occurring (xs.map OV.mean)) m := by
    intro m
    unfold maxV
    dsimp only
    split_ifs with h
    · rw [List.any_eq_true] at h
      obtain ⟨x0, hx0, ho⟩ := h
      rw [List.max?_eq_some_iff (xs := xs.map fun x => x.dflt (min 0 lb))]
      have hx0m : x0.val ∈ occurring (xs.map OV.mean) := (occurring_iff xs _).2 ⟨x0, hx0, ho, rfl⟩
      constructor
      · rintro ⟨hmem, hle⟩
        have hm0 : x0.val ≤ m := by
          have := hle (x0.dflt (min 0 lb)) (List.mem_map.2 ⟨x0, hx0, rfl⟩)
          simpa [OV.dflt, ho] using this
        obtain ⟨x, hx, hxm⟩ := List.mem_map.1 hmem
        have hlow : ∀ v ∈ occurring (xs.map OV.mean), v ≤ m := by
          intro v hv
          obtain ⟨z, hz, hzo, rfl⟩ := (occurring_iff xs v).1 hv
          have := hle (z.dflt (min 0 lb)) (List.mem_map.2 ⟨z, hz, rfl⟩)
          simpa [OV.dflt, hzo] using this
        refine ⟨?_, fun v hv => hlow v hv⟩
        by_cases hxo : x.occ = true
        · refine (occurring_iff xs m).2 ⟨x, hx, hxo, ?_⟩
          simpa [OV.dflt, hxo] using hxm
        · have hmu : m = min 0 lb := by
            have hxo' : x.occ = false := by simpa using hxo
            simpa [OV.dflt, hxo'] using hxm.symm
          have h1 := hl _ hx0m
          have : m = x0.val := by omega
          rw [this]; exact hx0m
      · rintro ⟨hmem, hlow⟩
        obtain ⟨x, hx, hxo, rfl⟩ := (occurring_iff xs m).1 hmem
        refine ⟨List.mem_map.2 ⟨x, hx, by simp [OV.dflt, hxo]⟩, ?_⟩
        intro b hb
        obtain ⟨z, hz, rfl⟩ := List.mem_map.1 hb
        by_cases hzo : z.occ = true
        · simpa [OV.dflt, hzo] using hlow ((occurring_iff xs _).2 ⟨z, hz, hzo, rfl⟩)
        · have := hl _ hmem
          have hzo' : z.occ = false := by simpa using hzo
          simp only [OV.dflt, hzo', Bool.false_eq_true, if_false]
          omega
    · refine ⟨fun h' => absurd h' (by simp), fun h' => ?_⟩
      obtain ⟨x, hx, hxo, -⟩ := (occurring_iff xs m).1 h'.1
      exact absurd (List.any_eq_true.2 ⟨x, hx, hxo⟩) h
  have hany : ∀ m, (∃ x ∈ xs, x.occ = true) → xs.map m ≠ ([] : List Int) := by
    rintro m ⟨x, hx, -⟩ h
    rw [List.map_eq_nil_iff] at h
    rw [h] at hx; cases hx
  refine ⟨hmin, hmax, hmin, hmax, ?_, ?_⟩
  · unfold minWeakV
    dsimp only
    split_ifs with h
    · rw [List.any_eq_true] at h
      rw [List.min?_eq_none_iff]
      refine ⟨fun h' => absurd h' (hany _ h), fun h' => ?_⟩
      obtain ⟨x, hx, ho⟩ := h
      have := (occurring_iff xs x.val).2 ⟨x, hx, ho, rfl⟩
      rw [h'] at this; exact absurd this (by simp)
    · refine ⟨fun _ => ?_, fun _ => rfl⟩
      ext v
      rw [occurring_iff]
      constructor
      · rintro ⟨x, hx, ho, -⟩
        exact absurd (List.any_eq_true.2 ⟨x, hx, ho⟩) h
      · intro h'; exact absurd h' (by simp)
  · unfold maxWeakV
    dsimp only
    split_ifs with h
    · rw [List.any_eq_true] at h
      rw [List.max?_eq_none_iff]
      refine ⟨fun h' => absurd h' (hany _ h), fun h' => ?_⟩
      obtain ⟨x, hx, ho⟩ := h
      have := (occurring_iff xs x.val).2 ⟨x, hx, ho, rfl⟩
      rw [h'] at this; exact absurd this (by simp)
    · refine ⟨fun _ => ?_, fun _ => rfl⟩
      ext v
      rw [occurring_iff]
      constructor
      · rintro ⟨x, hx, ho, -⟩
        exact absurd (List.any_eq_true.2 ⟨x, hx, ho⟩) h
      · intro h'; exact absurd h' (by simp)

example : minV 9 [⟨false, 0⟩, ⟨true, 7⟩, ⟨true, 4⟩] = some 4 ∧ maxV (-9) [⟨false, 0⟩, ⟨true, -7⟩] = some (-7) ∧
    minV 9 [⟨false, 0⟩] = none := by decide

theorem localSet_eq {x : Finset Int × OV Int} {s : Finset Int} (h : localSet x s) :
    ∀ v, v ∈ s ↔ (x.2.occ = true ∧ x.2.val = v) := by
  intro v
  obtain ⟨-, h⟩ := h
  by_cases ho : x.2.occ = true
  · rw [if_pos ho] at h
    obtain ⟨a, ha⟩ := Finset.card_eq_one.1 h.2
    rw [ha] at h ⊢
    have : x.2.val = a := by simpa using h.1
    simp [ho, this, eq_comm]
  · rw [if_neg ho, Finset.card_eq_zero] at h
    simp [h, ho]

theorem forall2_localSet {xs : List (Finset Int × OV Int)} {ss : List (Finset Int)} (h : List.Forall₂ localSet xs ss) :
    ∀ v, v ∈ unionAll ss ↔ ∃ x ∈ xs, x.2.occ = true ∧ x.2.val = v := by
  intro v
  induction h with
  | nil => simp [unionAll]
  | cons hab _ ih =>
    simp only [unionAll, Finset.mem_union, ih, localSet_eq hab, List.mem_cons, exists_eq_or_imp]

theorem exists_localSet (xs : List (Finset Int × OV Int)) (hd : ∀ x ∈ xs, x.2.occ = true → x.2.val ∈ x.1) :
    ∃ ss, List.Forall₂ localSet xs ss := by
  induction xs with
  | nil => exact ⟨[], List.Forall₂.nil⟩
  | cons a l ih =>
    obtain ⟨ss, hs⟩ := ih (fun x hx => hd x (by simp [hx]))
    by_cases ho : a.2.occ = true
    · refine ⟨{a.2.val} :: ss, List.Forall₂.cons ⟨?_, ?_⟩ hs⟩
      · simpa using hd a (by simp) ho
      · simp [ho]
    · exact ⟨∅ :: ss, List.Forall₂.cons ⟨by simp, by simp [ho]⟩ hs⟩

/-- `array2set` of optional variables is the set of the values that occur. -/
theorem _root_.MZ.C85_array2set (xs : List (Finset Int × OV Int)) (hd : ∀ x ∈ xs, x.2.occ = true → x.2.val ∈ x.1)
    (y : Finset Int) : optUnion xs y ↔ (∀ v, v ∈ y ↔ v ∈ occurring (xs.map fun x => x.2.mean)) := by
  have hocc : ∀ v, v ∈ occurring (xs.map fun x => x.2.mean) ↔ ∃ x ∈ xs, x.2.occ = true ∧ x.2.val = v := by
    intro v
    unfold occurring
    simp only [Set.mem_setOf_eq, List.mem_map]
    refine exists_congr fun x => and_congr_right fun _ => ?_
    obtain ⟨d, b, w⟩ := x
    cases b <;> simp [OV.mean]
  simp only [hocc]
  clear hocc
  match xs, hd with
  | [], _ => simp [optUnion, Finset.ext_iff]
  | [x], _ =>
    simp only [optUnion, List.mem_singleton, exists_eq_left]
    by_cases ho : x.2.occ = true
    · simp only [ho, if_true, true_and, forall_true_left]
      constructor
      · rintro ⟨hc, hm⟩ v
        obtain ⟨a, rfl⟩ := Finset.card_eq_one.1 (by exact_mod_cast hc)
        have : x.2.val = a := by simpa using hm
        simp [this, eq_comm]
      · intro h
        have : y = {x.2.val} := by ext v; rw [h]; simp [eq_comm]
        rw [this]; simp
    · have ho' : x.2.occ = false := by simpa using ho
      simp [ho', Finset.eq_empty_iff_forall_notMem]
  | a :: b :: l, hd =>
    simp only [optUnion]
    constructor
    · rintro ⟨ss, hs, rfl⟩ v
      exact forall2_localSet hs v
    · intro h
      obtain ⟨ss, hs⟩ := exists_localSet _ hd
      refine ⟨ss, hs, ?_⟩
      ext v
      rw [h, forall2_localSet hs]

example : optUnion [({1, 2}, ⟨true, 1⟩), ({4}, ⟨false, 0⟩)] {1} :=
  (C85_array2set _ (by decide) _).2 (by intro v; simp [occurring, OV.mean])

/-! ## Domains -/

/-- Membership of an optional variable in a set holds if it is absent. -/
theorem _root_.MZ.C85_set_in (x : OV Int) (s : Set Int) : setInV x s ↔ ∀ v, x.mean = some v → v ∈ s := by
  obtain ⟨b, v⟩ := x
  cases b <;> simp [setInV, OV.mean]

/-- Declaring an optional variable with a domain and giving it a value restricts the value to absent and that domain: exactly
if zero stands for absent, and up to the choice of the hidden value otherwise.  What is missing: a variable that may be zero with a
domain that has no zero, see `C85_var_dom_fails`. -/
theorem _root_.MZ.C85_var_dom_partial (az : Bool) (D s : Set Int) (h0 : (0 : Int) ∈ D → (0 : Int) ∈ s ∨ az = false) (x : OV Int)
    (hx : Rep az D x) :
    (az = true → (varDom az D s x ↔ ∀ v, x.mean = some v → v ∈ s)) ∧
    ((∃ z, Rep az D z ∧ z.mean = x.mean ∧ varDom az D s z) ↔ ∀ v, x.mean = some v → v ∈ s) := by
  have sound : ∀ z : OV Int, Rep az D z → varDom az D s z → ∀ v, z.mean = some v → v ∈ s := by
    rintro ⟨b, w⟩ hz ⟨h1, h2⟩ v hv
    cases b
    · cases hv
    · cases hv
      by_cases he : valDom az D ∩ s = ∅
      · exact absurd (h1 he) (by simp [OV.absent])
      · rcases h2 he with h | ⟨ha, h⟩
        · exact h.2
        · simp only at h
          subst h
          obtain ⟨hm⟩ : Nonempty ((0 : Int) ∈ D) := by
            rcases (C85_encoding az D (some 0)).1 ⟨_, hz, rfl⟩ with h | ⟨u, hu, h⟩
            · cases h
            · cases h; exact ⟨hu⟩
          rcases h0 hm with h | h
          · exact h
          · rw [ha] at h; cases h
  have comp : az = true → ∀ z : OV Int, Rep az D z → (∀ v, z.mean = some v → v ∈ s) → varDom az D s z := by
    intro ha
    rintro ⟨b, w⟩ hz hs
    cases b
    · refine ⟨fun _ => rfl, fun _ => Or.inr ⟨ha, ?_⟩⟩
      have h00 : Rep true D ⟨false, 0⟩ := by
        by_cases hD : D = ∅
        · exact Or.inl ⟨hD, rfl⟩
        · exact Or.inr ⟨hD, Or.inr ⟨rfl, rfl⟩, fun _ => ⟨fun _ => Or.inr rfl, fun _ => by simp⟩⟩
      have := C85_encoding_unique D ⟨false, w⟩ ⟨false, 0⟩ (by rw [ha] at hz; exact hz) h00 rfl
      simpa using this
    · have hw := hs w rfl
      have hd : w ∈ valDom az D := by
        rcases hz with ⟨-, h⟩ | ⟨-, h, -⟩
        · simp at h
        · exact h
      exact ⟨fun he => absurd (show w ∈ valDom az D ∩ s from ⟨hd, hw⟩) (by rw [he]; simp), fun _ => Or.inl ⟨hd, hw⟩⟩
  refine ⟨fun ha => ⟨sound x hx, comp ha x hx⟩, ⟨fun ⟨z, hz, hm, hv⟩ => hm ▸ sound z hz hv, fun hs => ?_⟩⟩
  cases az with
  | true => exact ⟨x, hx, rfl, comp rfl x hx hs⟩
  | false =>
    obtain ⟨b, w⟩ := x
    cases b with
    | true =>
      have hw := hs w rfl
      have hd : w ∈ valDom false D := by
        rcases hx with ⟨-, h⟩ | ⟨-, h, -⟩
        · simp at h
        · exact h
      exact ⟨_, hx, rfl, fun he => absurd (show w ∈ valDom false D ∩ s from ⟨hd, hw⟩) (by rw [he]; simp), fun _ => Or.inl ⟨hd, hw⟩⟩
    | false =>
      by_cases he : valDom false D ∩ s = ∅
      · exact ⟨_, hx, rfl, fun _ => rfl, fun h => absurd he h⟩
      · obtain ⟨u, hu⟩ := Set.nonempty_iff_ne_empty.2 he
        refine ⟨⟨false, u⟩, Or.inr ⟨?_, hu.1, fun h => by cases h⟩, rfl, fun _ => rfl, fun _ => Or.inl hu⟩
        rintro rfl
        rcases hu.1 with h | h
        · exact h
        · cases h.1

/-- **Deviation.**  A variable that occurs with the value 0 passes the domain `1..2`: `var_dom` adds 0 to the domain in order to
let the variable be absent, even if 0 is one of its values. -/
theorem _root_.MZ.C85_var_dom_fails :
    ∃ (D s : Set Int) (x : OV Int), Rep true D x ∧ x.mean = some 0 ∧ (0 : Int) ∉ s ∧ varDom true D s x := by
  refine ⟨{0, 1, 2}, {1, 2}, ⟨true, 0⟩, ?_, rfl, by simp, ?_, ?_⟩
  · exact Or.inr ⟨(Set.insert_nonempty _ _).ne_empty, Or.inl (by simp), fun _ => ⟨fun _ => Or.inl rfl, fun h => absurd (Or.inr (by simp)) h⟩⟩
  · intro h
    have : (1 : Int) ∈ valDom true {0, 1, 2} ∩ ({1, 2} : Set Int) := ⟨Or.inl (by simp), by simp⟩
    rw [h] at this
    exact absurd this (by simp)
  · intro _
    exact Or.inr ⟨rfl, rfl⟩

/-- The test on parameters is right. -/
theorem _root_.MZ.C85_var_dom_par (a : Option Int) (s : Set Int) : varDomP a s ↔ (a = none ∨ ∃ v, v ∈ s ∧ a = some v) := by
  cases a <;> simp [varDomP, pdeopt]

example : Rep true {1, 2, 3} ⟨true, 3⟩ ∧ ((0 : Int) ∈ ({1, 2, 3} : Set Int) → (0 : Int) ∈ ({1, 2} : Set Int) ∨ true = false) :=
  ⟨Or.inr ⟨(Set.insert_nonempty _ _).ne_empty, Or.inl (by simp), fun _ => ⟨fun _ => Or.inl rfl, fun _ => by simp⟩⟩, by simp⟩

/-! ## Array access -/

/-- Access with an optional index, to an array of optional variables, or both: absent if the index is absent or the element is, and
undefined iff the index occurs and is out of bounds.  The second representation of an absent index, as position 0 of a
longer array, gives the same. -/
theorem _root_.MZ.C85_element (az : Bool) (D : Set Int) (lo hi : Int) (idx : OV Int) (hidx : Rep az D idx) (i : Int)
    (x : Int → Int) (z : Int → OV Int) :
    elementI lo hi idx x = accessOpt lo hi (fun k => some (x k)) idx.mean ∧
    elementX lo hi i z = accessOpt lo hi (fun k => (z k).mean) (some i) ∧
    elementIX az D lo hi idx z = accessOpt lo hi (fun k => (z k).mean) idx.mean := by
  have hX : ∀ (lo hi i : Int) (z : Int → OV Int), elementX lo hi i z = access lo hi (fun k => (z k).mean) i := by
    intro lo hi i z
    unfold elementX acc access
    split_ifs with h
    · cases hz : z i with
      | mk b w => cases b <;> simp [OV.dflt, OV.mean, hz]
    · rfl
  refine ⟨?_, hX lo hi i z, ?_⟩
  · obtain ⟨b, w⟩ := idx
    cases b
    · rfl
    · simp only [elementI, OV.absent, OV.mean, accessOpt, access, acc, Bool.not_true, Bool.false_eq_true, if_false, if_true]
      split_ifs <;> rfl
  · unfold elementIX
    split_ifs with h hb
    · obtain ⟨hle, hz, rfl⟩ := h
      have haz : az = true := by
        by_contra hc
        exact hz (Or.inl (by simpa using hc))
      subst haz
      rw [hX]
      have hocc : idx.occ = true ↔ idx.val ≠ 0 := by
        rcases hidx with ⟨-, rfl⟩ | ⟨-, -, hc⟩
        · simp
        · exact (hc rfl).2 hz
      obtain ⟨b, w⟩ := idx
      cases b
      · have hw : w = 0 := by simpa using hocc
        subst hw
        simp only [access, accessOpt, OV.mean, if_true, Bool.false_eq_true, if_false]
        rw [if_pos ⟨le_refl _, by omega⟩]
      · have hw : w ≠ 0 := hocc.1 rfl
        simp only [access, accessOpt, OV.mean, if_true, if_neg hw]
        by_cases h1 : 1 ≤ w ∧ w ≤ hi
        · rw [if_pos h1, if_pos ⟨by omega, h1.2⟩]
        · rw [if_neg h1, if_neg (by omega)]
    · obtain ⟨b, w⟩ := idx
      cases b
      · rfl
      · cases hb
    · obtain ⟨b, w⟩ := idx
      cases b
      · exact absurd rfl hb
      · rw [hX]; rfl

example : elementX 1 2 2 (fun i => if i = 1 then ⟨true, 5⟩ else ⟨false, 0⟩) = some none ∧
    elementI 1 2 ⟨true, 2⟩ (fun i => 10 * i) = some (some 20) ∧ elementI 1 2 ⟨true, 3⟩ (fun i => 10 * i) = none := by decide

/-- Access with two optional indices to an array that is not empty.  What is missing: an empty array, see
`C85_element_2d_fails`. -/
theorem _root_.MZ.C85_element_2d_partial (l1 h1 l2 h2 : Int) (hn1 : l1 ≤ h1) (hn2 : l2 ≤ h2) (i j : OV Int) (x : Int → Int → Int) :
    element2 l1 h1 l2 h2 i j x = accessOpt2 l1 h1 l2 h2 (fun a b => some (x a b)) i.mean j.mean := by
  unfold element2 accessOpt2
  rw [if_neg (by omega)]
  dsimp only
  obtain ⟨b, v⟩ := i
  obtain ⟨c, w⟩ := j
  have hb : ∀ (l h : Int) (b : Bool) (v : Int), l ≤ h →
      (InBounds l h (OV.mk b v).mean ↔ (l ≤ (OV.mk b v).dflt l ∧ (OV.mk b v).dflt l ≤ h)) := by
    intro l h b v hl
    cases b <;> simp [InBounds, OV.mean, OV.dflt, hl]
  by_cases hc : (l1 ≤ (OV.mk b v).dflt l1 ∧ (OV.mk b v).dflt l1 ≤ h1) ∧ (l2 ≤ (OV.mk c w).dflt l2 ∧ (OV.mk c w).dflt l2 ≤ h2)
  · rw [if_pos hc, if_pos ⟨(hb _ _ _ _ hn1).2 hc.1, (hb _ _ _ _ hn2).2 hc.2⟩]
    cases b <;> cases c <;> simp [OV.absent, OV.mean, OV.dflt]
  · rw [if_neg hc, if_neg (fun h => hc ⟨(hb _ _ _ _ hn1).1 h.1, (hb _ _ _ _ hn2).1 h.2⟩)]
    rfl

/-- **Deviation.**  If the second dimension is empty and the first one is not, an access with a first index within bounds and an absent
second index should be absent; it is undefined. -/
theorem _root_.MZ.C85_element_2d_fails :
    ∃ (x : Int → Int → Int), element2 1 3 1 0 ⟨true, 2⟩ ⟨false, 0⟩ x = none ∧
      accessOpt2 1 3 1 0 (fun a b => some (x a b)) (some 2) none = some none := by
  refine ⟨fun _ _ => 0, rfl, ?_⟩
  unfold accessOpt2
  rw [if_pos ⟨by intro k hk; cases hk; decide, by intro k hk; cases hk⟩]

/-! ## Objectives -/

/-- An optional objective: every value that occurs is better than absent, and values that occur are compared as such. -/
theorem _root_.MZ.C85_objective (lb ub : Int) (x y : OV Int) (hx : ∀ v, x.mean = some v → lb ≤ v ∧ v ≤ ub)
    (hy : ∀ v, y.mean = some v → lb ≤ v ∧ v ≤ ub) :
    (objective lb ub true x < objective lb ub true y ↔
      ∃ v, y.mean = some v ∧ ∀ u, x.mean = some u → u < v) ∧
    (objective lb ub false y < objective lb ub false x ↔
      ∃ v, y.mean = some v ∧ ∀ u, x.mean = some u → v < u) := by
  obtain ⟨b, v⟩ := x
  obtain ⟨c, w⟩ := y
  cases b <;> cases c <;> simp [objective, OV.mean] at hx hy ⊢ <;> omega

example : objective 1 9 true ⟨false, 0⟩ = 0 ∧ objective 1 9 false ⟨false, 0⟩ = 10 ∧ objective 1 9 true ⟨true, 4⟩ = 4 := by decide

end MZ.OptTypes
