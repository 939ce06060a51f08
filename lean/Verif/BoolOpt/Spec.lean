import Verif.BoolOpt.Model

/-!
# Solutions of a flat model of Boolean constraints
-/

namespace MZ
namespace BoolOpt

/-- An assignment of the Boolean variables. -/
abbrev Asg := Var → Bool

def Elem.eval (σ : Asg) : Elem → Bool
  | .var v => σ v
  | .lit b => b

/-- The meaning of the expressions. -/
def Con.Eval (σ : Asg) : Con → Prop
  | .conj al => ∀ e ∈ al, e.eval σ = true
  | .disj al => ∃ e ∈ al, e.eval σ = true
  | .clause p n => (∃ e ∈ p, e.eval σ = true) ∨ ∃ e ∈ n, e.eval σ = false
  | .eq a b => a.eval σ = b.eval σ
  | .id v => σ v = true
  | .const b => b = true

def Item.Holds (σ : Asg) : Item → Prop
  | .con c => c.Eval σ
  | .defn v c => σ v = true ↔ c.Eval σ

/-- The assignment agrees with the domains (or right hand sides). -/
def Agrees (σ : Asg) (f : Var → Option Bool) : Prop := ∀ v b, f v = some b → σ v = b

/-- The assignment is a solution. -/
def Model.Sol (σ : Asg) (m : Model) : Prop :=
  m.failed = false ∧ Agrees σ m.dom ∧ Agrees σ m.rhs ∧ (∀ it ∈ m.items, it.Holds σ) ∧ ∀ p ∈ m.eqs, σ p.1 = σ p.2

/-- The part of a solution a step on one item is about. -/
def Before (σ : Asg) (dom rhs : Var → Option Bool) (it : Item) : Prop :=
  Agrees σ dom ∧ Agrees σ rhs ∧ it.Holds σ

def After (σ : Asg) (o : Out) : Prop :=
  o.fail = false ∧ Agrees σ o.dom ∧ Agrees σ o.rhs ∧ (∀ it ∈ o.item, it.Holds σ) ∧ ∀ p ∈ o.unify, σ p.1 = σ p.2

end BoolOpt
end MZ
