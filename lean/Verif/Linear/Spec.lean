import Verif.Linear.Model
import Mathlib.Algebra.BigOperators.Group.List.Basic
/-!
# Specification: the meaning of linear expressions and constraints under an assignment
-/
namespace MZ
namespace Linear

/-- Value of an operand; `ρ` assigns integers to the operands that are not literals. -/
def Atom.eval (ρ : Atom → Int) : Atom → Int
  | .lit v => v
  | a => ρ a

/-- `Σ c·x`. -/
def sum (ρ : Atom → Int) (ts : List (Int × Atom)) : Int := (ts.map (fun t => t.1 * t.2.eval ρ)).sum

/-- The meaning of the FlatZinc builtins `int_lin_le`, `int_lin_eq` and `int_lin_ne`. -/
def LinOp.holds (ρ : Atom → Int) : LinOp → List (Int × Atom) → Int → Prop
  | .le, ts, k => sum ρ ts ≤ k
  | .eq, ts, k => sum ρ ts = k
  | .ne, ts, k => sum ρ ts ≠ k

end Linear
end MZ
