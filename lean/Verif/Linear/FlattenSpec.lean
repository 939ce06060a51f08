import Verif.Linear.Spec
import Verif.Linear.FlattenModel
import Verif.Domain.Props
/-!
# Specification: what it means for the outcome of flattening to be right
-/
namespace MZ
namespace Linear
open Domain (Cmp)

/-- The extended integer a side of the comparison stands for. -/
def Side.val (ρ : Atom → Int) : Side → Option Ext
  | .const v => v.denote
  | .atom a => some (.fin (a.eval ρ))
  | .lin ts k => some (.fin (sum ρ ts + k))

/-- The six comparisons on the extended integers. -/
def holdsE : Cmp → Ext → Ext → Prop
  | .le, x, y => x < y
  | .lq, x, y => x ≤ y
  | .gr, x, y => y < x
  | .gq, x, y => y ≤ x
  | .eq, x, y => x = y
  | .nq, x, y => x ≠ y

/-- The assignment respects the known bounds and the declared domains. -/
def Consistent (E : Env) (ρ : Atom → Int) : Prop :=
  (∀ a l u, E.bounds a = some (l, u) → l ≤ .fin (a.eval ρ) ∧ .fin (a.eval ρ) ≤ u) ∧
  (∀ a D, E.dom a = some D → Mem (a.eval ρ) D)

/-- The assignment satisfies the posted constraint (for a Boolean constant: the constant is true). -/
def Post.holds (ρ : Atom → Int) : Post → Prop
  | .const b => b = true
  | .nothing => True
  | .newDomain a d => Mem (a.eval ρ) d
  | .unify a b => a.eval ρ = b.eval ρ
  | .cmp bot e0 e1 => bot.holds (e0.eval ρ) (e1.eval ρ)
  | .lin op ts k _ _ => op.holds ρ ts k

/-- The assignment survives the domain change that accompanies a linear constraint. -/
def Post.survives (ρ : Atom → Int) : Post → Prop
  | .lin _ _ _ nd failed => failed = false ∧ ∀ a D, nd = some (a, D) → Mem (a.eval ρ) D
  | _ => True

/-- Boolean constants are complemented in a doubly negated context. -/
def Post.isConst : Post → Bool
  | .const _ => true
  | _ => false

end Linear
end MZ
