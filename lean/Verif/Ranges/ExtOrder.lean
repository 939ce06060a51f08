import Verif.IntVal.Spec
import Mathlib.Order.Defs.LinearOrder
import Mathlib.Order.Lattice
/-!
# The extended integers as a linear order with successor

Bounds of integer ranges are `IntVal`s; here they are the extended integers those
`IntVal`s denote (`Verif/IntVal/Spec.lean`).
-/
namespace MZ
namespace Ext

instance : LE Ext := ⟨Ext.le⟩
instance : LT Ext := ⟨fun a b => Ext.le a b ∧ ¬ Ext.le b a⟩

instance decLe : (a b : Ext) → Decidable (a ≤ b)
  | negInf, _ => isTrue (by show Ext.le _ _; simp [Ext.le])
  | fin a, fin b => if h : a ≤ b then isTrue h else isFalse h
  | fin _, posInf => isTrue (by show Ext.le _ _; simp [Ext.le])
  | posInf, posInf => isTrue (by show Ext.le _ _; simp [Ext.le])
  | fin _, negInf => isFalse (by show ¬ Ext.le _ _; simp [Ext.le])
  | posInf, negInf => isFalse (by show ¬ Ext.le _ _; simp [Ext.le])
  | posInf, fin _ => isFalse (by show ¬ Ext.le _ _; simp [Ext.le])

instance : LinearOrder Ext where
  le_refl a := by show Ext.le a a; cases a <;> simp [Ext.le]
  le_trans a b c h1 h2 := by
    show Ext.le a c
    change Ext.le a b at h1; change Ext.le b c at h2
    cases a <;> cases b <;> cases c <;> simp_all [Ext.le]; omega
  le_antisymm a b h1 h2 := by
    change Ext.le a b at h1; change Ext.le b a at h2
    cases a <;> cases b <;> simp_all [Ext.le]; omega
  lt_iff_le_not_ge a b := Iff.rfl
  le_total a b := by
    show Ext.le a b ∨ Ext.le b a
    cases a <;> cases b <;> simp_all [Ext.le]; omega
  toDecidableLE := decLe
  min a b := if a ≤ b then a else b
  max a b := if a ≤ b then b else a
  min_def _ _ := rfl
  max_def _ _ := rfl

@[simp] theorem fin_le_fin {a b : Int} : (fin a ≤ fin b) ↔ a ≤ b := Iff.rfl
@[simp] theorem fin_lt_fin {a b : Int} : (fin a < fin b) ↔ a < b := by
  rw [lt_iff_le_not_ge]; simp; omega
@[simp] theorem negInf_le (a : Ext) : negInf ≤ a := by show Ext.le _ _; simp [Ext.le]
@[simp] theorem le_posInf (a : Ext) : a ≤ posInf := by
  show Ext.le _ _; cases a <;> simp [Ext.le]
@[simp] theorem not_fin_le_negInf {a : Int} : ¬ (fin a ≤ negInf) := fun h => h
@[simp] theorem not_posInf_le_fin {a : Int} : ¬ (posInf ≤ fin a) := fun h => h
@[simp] theorem not_posInf_le_negInf : ¬ (posInf ≤ negInf) := fun h => h
@[simp] theorem negInf_lt_fin {a : Int} : negInf < fin a := by rw [lt_iff_le_not_ge]; simp
@[simp] theorem fin_lt_posInf {a : Int} : fin a < posInf := by rw [lt_iff_le_not_ge]; simp
@[simp] theorem negInf_lt_posInf : negInf < posInf := by rw [lt_iff_le_not_ge]; simp
@[simp] theorem not_lt_negInf {a : Ext} : ¬ (a < negInf) := not_lt.2 (negInf_le a)
@[simp] theorem not_posInf_lt {a : Ext} : ¬ (posInf < a) := not_lt.2 (le_posInf a)

/-- values.hh 215–220 `plus(1)` on the denoted extended integer (`Ranges::next_higher`,
iter.hh 296): infinities stay. Simplification: finite bounds are unbounded integers;
at `LLONG_MAX` the C++ raises an arithmetic error instead (see `MZ.C02_plus_minus`). -/
def succ : Ext → Ext
  | negInf => negInf
  | fin a => fin (a + 1)
  | posInf => posInf

/-- values.hh 222–227 `minus(1)` (`Ranges::next_lower`, iter.hh 297). -/
def pred : Ext → Ext
  | negInf => negInf
  | fin a => fin (a - 1)
  | posInf => posInf

@[simp] theorem succ_fin {a : Int} : succ (fin a) = fin (a + 1) := rfl
@[simp] theorem succ_negInf : succ negInf = negInf := rfl
@[simp] theorem succ_posInf : succ posInf = posInf := rfl
@[simp] theorem pred_fin {a : Int} : pred (fin a) = fin (a - 1) := rfl
@[simp] theorem pred_negInf : pred negInf = negInf := rfl
@[simp] theorem pred_posInf : pred posInf = posInf := rfl

theorem succ_pred (a : Ext) : succ (pred a) = a := by cases a <;> simp
theorem pred_succ (a : Ext) : pred (succ a) = a := by cases a <;> simp

theorem succ_le_succ {a b : Ext} : succ a ≤ succ b ↔ a ≤ b := by
  cases a <;> cases b <;> simp
theorem succ_lt_succ {a b : Ext} : succ a < succ b ↔ a < b := by
  rw [← not_le, ← not_le, succ_le_succ]
theorem succ_inj {a b : Ext} : succ a = succ b ↔ a = b := by
  cases a <;> cases b <;> simp
theorem le_succ (a : Ext) : a ≤ succ a := by cases a <;> simp; omega
theorem max_succ (a b : Ext) : succ (max a b) = max (succ a) (succ b) := by
  simp only [max_def, succ_le_succ]; split <;> rfl
theorem min_succ (a b : Ext) : succ (min a b) = min (succ a) (succ b) := by
  simp only [min_def, succ_le_succ]; split <;> rfl

/-- Order and successor: `a < b` iff `a + 1 ≤ b`, away from the infinite fixed points. -/
theorem lt_iff_succ_le {a b : Ext} (ha : a ≠ negInf) (hb : b ≠ posInf) : a < b ↔ succ a ≤ b := by
  cases a <;> cases b <;> simp_all; omega

theorem fin_le_iff_lt_succ {x : Int} {a : Ext} : fin x ≤ a ↔ fin x < succ a := by
  cases a <;> simp; omega

end Ext
end MZ
