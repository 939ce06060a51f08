import Verif.OptCons.Model
import Verif.Linear.Spec
import Verif.Ranges.Spec
/-!
# Specification: the meaning of FlatZinc constraints, and when an optimiser's answer is right
-/
namespace MZ
namespace OptCons
open Linear (Atom)

/-- An assignment: integers for integer operands, truth values for Boolean ones. -/
structure Asg where
  int : Atom → Int
  bool : BAtom → Bool

def BAtom.eval (σ : Asg) : BAtom → Bool
  | .lit b => b
  | a => σ.bool a

/-- The FlatZinc semantics of the constraints. `int_div` is false when the divisor is 0; `array_int_element`
counts from 1. -/
def Con.holds (σ : Asg) : Con → Prop
  | .lin op ts k => op.holds σ.int ts k
  | .intEq a b => a.eval σ.int = b.eval σ.int
  | .intLe a b => a.eval σ.int ≤ b.eval σ.int
  | .intNe a b => a.eval σ.int ≠ b.eval σ.int
  | .intDiv a b c => b.eval σ.int ≠ 0 ∧ (a.eval σ.int).tdiv (b.eval σ.int) = c.eval σ.int
  | .intTimes a b c => a.eval σ.int * b.eval σ.int = c.eval σ.int
  | .element i xs r => ∃ (n : Nat) (e : Atom), i.eval σ.int = (n : Int) + 1 ∧ xs[n]? = some e ∧
      e.eval σ.int = r.eval σ.int
  | .setIn x S => Mem (x.eval σ.int) S
  | .clause pos neg => (∃ a ∈ pos, a.eval σ = true) ∨ ∃ a ∈ neg, a.eval σ = false
  | .conj xs => ∀ a ∈ xs, a.eval σ = true
  | .disj xs => ∃ a ∈ xs, a.eval σ = true
  | .boolNot a b => a.eval σ ≠ b.eval σ
  | .boolEq a b => a.eval σ = b.eval σ

def IExp.eval (σ : Asg) : IExp → Int
  | .atom a => a.eval σ.int
  | .lin ts d => Linear.sum σ.int ts + d
  | .times a b => a.eval σ.int * b.eval σ.int

/-- The assignment respects the declared domains. -/
def Respects (E : Env) (σ : Asg) : Prop :=
  (∀ a D, E.dom a = some D → Mem (a.eval σ.int) D) ∧
  (∀ n b, E.bdom n = some b → σ.bool (.var n) = b)

/-- The domains are sets as built by the library. -/
def WF (E : Env) : Prop := ∀ a D, E.dom a = some D → Normal D

/-- The answer is right: a constraint said to fail has no solution within the domains, one said to be
entailed is satisfied by every assignment within the domains, and a replacement has the same
solutions. -/
def Right (E : Env) (c : Con) : Status Con → Prop
  | .ok => True
  | .failed => ∀ σ, Respects E σ → ¬ c.holds σ
  | .entailed => ∀ σ, Respects E σ → c.holds σ
  | .rewrite c' => ∀ σ, Respects E σ → (c'.holds σ ↔ c.holds σ)

end OptCons
end MZ
