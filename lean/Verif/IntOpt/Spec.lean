import Verif.IntOpt.Model

/-!
# Assignments and solutions
-/

namespace MZ
namespace IntOpt

/-- An assignment of the variables. -/
structure Asg where
  i : Nat → Int
  b : Nat → Bool

/-- The meaning of the calls that are not modelled: whether the constraint `n` holds, and whether a value is the result of
the function call `n`. -/
structure Interp where
  con : Nat → Asg → Prop
  fn : Nat → Asg → Int → Prop

def IArg.eval (σ : Asg) : IArg → Int
  | .var x => σ.i x
  | .lit k => k

def BArg.eval (σ : Asg) : BArg → Bool
  | .var v => σ.b v
  | .lit b => b

def b2i (b : Bool) : Int := if b then 1 else 0

def Con.Eval (I : Interp) (σ : Asg) : Con → Prop
  | .intEq a b => a.eval σ = b.eval σ
  | .boolEq a b => a.eval σ = b.eval σ
  | .intLe a b => a.eval σ ≤ b.eval σ
  | .b2i b x => x.eval σ = IntOpt.b2i (b.eval σ)
  | .other n => I.con n σ

def IRhs.Eval (I : Interp) (σ : Asg) (v : Int) : IRhs → Prop
  | .lit k => v = k
  | .b2i b => v = IntOpt.b2i (b.eval σ)
  | .other n => I.fn n σ v

def BRhs.Eval (I : Interp) (σ : Asg) (v : Bool) : BRhs → Prop
  | .lit b => v = b
  | .con c => v = true ↔ c.Eval I σ

/-- The assignment satisfies all declarations. -/
def Decls.Ok (I : Interp) (σ : Asg) (st : Decls) : Prop :=
  (∀ x D, st.idom x = some D → Mem (σ.i x) D) ∧
  (∀ v b, st.bdom v = some b → σ.b v = b) ∧
  (∀ x r, st.irhs x = some r → r.Eval I σ (σ.i x)) ∧
  (∀ v r, st.brhs v = some r → r.Eval I σ (σ.b v))

/-- The declarations and the item before the step. -/
def Before (I : Interp) (σ : Asg) (st : Decls) (it : Item) : Prop :=
  st.Ok I σ ∧ ∀ c, it.kept = some c → c.Eval I σ

/-- The declarations, the item and the equalities after the step. -/
def After (I : Interp) (σ : Asg) (o : Out) : Prop :=
  o.fail = false ∧ o.st.Ok I σ ∧ (∀ c, o.keep = some c → c.Eval I σ) ∧
  (∀ p, o.iunify = some p → σ.i p.1 = σ.i p.2) ∧ (∀ p, o.bunify = some p → σ.b p.1 = σ.b p.2)

/-- The domains are sets of integers in normal form. -/
def Decls.Normal (st : Decls) : Prop := ∀ x D, st.idom x = some D → MZ.Normal D

/-- The answer of the registry is right for all assignments that satisfy the declarations. -/
def Status.Right (I : Interp) (st : Decls) (c : Con) : Status → Prop
  | .ok => True
  | .failed => ∀ σ, (∀ x D, st.idom x = some D → Mem (σ.i x) D) → (∀ v b, st.bdom v = some b → σ.b v = b) → ¬c.Eval I σ
  | .entailed => ∀ σ, (∀ x D, st.idom x = some D → Mem (σ.i x) D) → (∀ v b, st.bdom v = some b → σ.b v = b) → c.Eval I σ
  | .rewrite c' => ∀ σ, (∀ x D, st.idom x = some D → Mem (σ.i x) D) → (∀ v b, st.bdom v = some b → σ.b v = b) →
      (c'.Eval I σ ↔ c.Eval I σ)

end IntOpt
end MZ
