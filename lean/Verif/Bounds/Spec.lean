import Verif.Bounds.Model
import Verif.Ranges.Spec
import Mathlib.Data.Finset.Card
import Mathlib.Algebra.Order.Ring.Int
/-!
# Specification: the values an expression can take

`eval` is the mathematical meaning of the expressions; `Respects` says that an assignment keeps every
unknown inside its declared domain.
-/
namespace MZ
namespace Bounds

/-- An assignment of the unknowns. -/
structure Asg where
  int : Nat → Int
  bool : Nat → Bool
  set : Nat → Finset Int

def b2i (b : Bool) : Int := if b then 1 else 0

/-- Value of a binary operation; division and remainder truncate and are undefined for divisor 0. -/
def Op.eval : Op → Int → Int → Option Int
  | .plus, x, y => some (x + y)
  | .minus, x, y => some (x - y)
  | .mult, x, y => some (x * y)
  | .idiv, x, y => if y = 0 then none else some (x.tdiv y)
  | .mod, x, y => if y = 0 then none else some (x.tmod y)
  | .pow, x, y => if y < 0 then none else some (x ^ y.toNat)

def Cond.eval (σ : Asg) : Cond → Bool
  | .par b => b
  | .var k => σ.bool k

mutual
/-- The value of an expression (Booleans count as 0 and 1), `none` when it is undefined. -/
def E.eval (σ : Asg) : E → Option Int
  | .parInt v => some v
  | .parBool b => some (b2i b)
  | .parOther => none
  | .array => none
  | .boolExpr k => some (b2i (σ.bool k))
  | .boolDom b => some (b2i b)
  | .boolRhs e => e.eval σ
  | .boolVar k => some (b2i (σ.bool k))
  | .varDom k _ => some (σ.int k)
  | .varRhs e => e.eval σ
  | .var k => some (σ.int k)
  | .accElem _ e => e.eval σ
  | .accDom k _ _ => some (σ.int k)
  | .acc k _ => some (σ.int k)
  | .bin op a b => do
    let x ← a.eval σ
    let y ← b.eval σ
    op.eval x y
  | .plus a => a.eval σ
  | .neg a => do
    let x ← a.eval σ
    some (-x)
  | .ite bs => bs.eval σ
  | .lin cs xs d => do
    let t ← xs.lin σ cs
    some (t + d)
  | .sum xs => xs.lin σ (List.replicate xs.length 1)
  | .card k _ => some (σ.set k).card
  | .times a b => do
    let x ← a.eval σ
    let y ← b.eval σ
    some (x * y)
  | .bool2int a => a.eval σ
  | .abs a => do
    let x ← a.eval σ
    some (if x < 0 then -x else x)
  | .uniform k _ _ => some (σ.int k)
  | .same a => a.eval σ
  | .call k _ _ => some (σ.int k)
  | .unknown k _ => some (σ.int k)
/-- The weighted sum `Σ cᵢ·xᵢ`. -/
def Es.lin (σ : Asg) : Es → List Int → Option Int
  | .nil, _ => some 0
  | .cons e es, cs => do
    let c ← cs.head?
    let x ← e.eval σ
    let t ← es.lin σ cs.tail
    some (c * x + t)
/-- The first branch whose condition holds, else the last one. -/
def Bs.eval (σ : Asg) : Bs → Option Int
  | .els e => e.eval σ
  | .cons c e bs => if c.eval σ then e.eval σ else bs.eval σ
end

mutual
/-- The assignment keeps every unknown inside its domain (and domains are normal-form sets). -/
def E.Respects (σ : Asg) : E → Prop
  | .boolRhs e => e.Respects σ
  | .varDom k D => Normal D ∧ Mem (σ.int k) D
  | .varRhs e => e.Respects σ
  | .accElem idx e => idx.Respects σ ∧ e.Respects σ
  | .accDom k idx D => idx.Respects σ ∧ Normal D ∧ Mem (σ.int k) D
  | .acc _ idx => idx.Respects σ
  | .bin _ a b => a.Respects σ ∧ b.Respects σ
  | .plus a => a.Respects σ
  | .neg a => a.Respects σ
  | .ite bs => bs.Respects σ
  | .lin _ xs _ => xs.Respects σ
  | .sum xs => xs.Respects σ
  | .card k (some B) => Normal B ∧ ∀ x ∈ σ.set k, Mem x B
  | .times a b => a.Respects σ ∧ b.Respects σ
  | .bool2int a => a.Respects σ ∧ ∀ v, a.eval σ = some v → v = 0 ∨ v = 1
  | .abs a => a.Respects σ
  | .uniform k a b => a.Respects σ ∧ b.Respects σ ∧
      (∀ x, a.eval σ = some x → x ≤ σ.int k) ∧ (∀ y, b.eval σ = some y → σ.int k ≤ y)
  | .same a => a.Respects σ
  | .call k args D => args.Respects σ ∧ Normal D ∧ Mem (σ.int k) D
  | .unknown _ args => args.Respects σ
  | _ => True
def Es.Respects (σ : Asg) : Es → Prop
  | .nil => True
  | .cons e es => e.Respects σ ∧ es.Respects σ
def Bs.Respects (σ : Asg) : Bs → Prop
  | .els e => e.Respects σ
  | .cons _ e bs => e.Respects σ ∧ bs.Respects σ
end

/-- The pair of bounds encloses the value. -/
def Encloses (b : B) (v : Int) : Prop :=
  ∃ l u, b.1.denote = some l ∧ b.2.denote = some u ∧ l ≤ .fin v ∧ .fin v ≤ u

end Bounds
end MZ
