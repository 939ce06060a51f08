import Verif.Let.Model
/-!
# The meaning of let expressions

Relational semantics: an integer expression has a set of values, which is empty if it is undefined and has more than one element only if a
local variable is free; a Boolean expression is true if there are values that make it true.
-/
namespace MZ
namespace Let
open BoolFlat (BCtx Cmp)

/-- The values of variables with another value for `x`. -/
def upd (ρ : Nat → Int) (x : Nat) (v : Int) : Nat → Int := fun y => if y = x then v else ρ y

open Classical in
mutual
/-- `v` is a value of the expression. -/
def IE.Val : IE → (Nat → Int) → Int → Prop
  | .lit w, _, v => v = w
  | .var x, ρ, v => v = ρ x
  | .add s t, ρ, v => ∃ a b, s.Val ρ a ∧ t.Val ρ b ∧ v = a + b
  | .div s t, ρ, v => ∃ a b, s.Val ρ a ∧ t.Val ρ b ∧ b ≠ 0 ∧ v = a.tdiv b
  | .let_ its t, ρ, v => ∃ ρ', its.Binds ρ ρ' ∧ t.Val ρ' v
/-- The expression is true. -/
def BE.True : BE → (Nat → Int) → Prop
  | .var x, ρ => ρ x ≠ 0
  | .cmp o s t, ρ => ∃ a b, s.Val ρ a ∧ t.Val ρ b ∧ o.holds a b = true
  | .not e, ρ => ¬ e.True ρ
  | .and a b, ρ => a.True ρ ∧ b.True ρ
  | .or a b, ρ => a.True ρ ∨ b.True ρ
  | .iff a b, ρ => (a.True ρ ↔ b.True ρ)
  | .let_ its e, ρ => ∃ ρ', its.Binds ρ ρ' ∧ e.True ρ'
/-- The items of a let extend the values by those of the local variables. -/
def Items.Binds : Items → (Nat → Int) → (Nat → Int) → Prop
  | .nil, ρ, ρ' => ρ' = ρ
  | .dcl x t d r, ρ, ρ' => ∃ v, t.Val ρ v ∧ (∀ dom, d = some dom → v ∈ dom) ∧ r.Binds (upd ρ x v) ρ'
  | .dclB x e r, ρ, ρ' => r.Binds (upd ρ x (if e.True ρ then 1 else 0)) ρ'
  | .free x d r, ρ, ρ' => ∃ v ∈ d, r.Binds (upd ρ x v) ρ'
  | .con e r, ρ, ρ' => e.True ρ ∧ r.Binds ρ ρ'
end

/-- Positive, negative or both: where an expression occurs. -/
inductive Pol where
  | pos | neg | both
deriving DecidableEq, Repr

/-- Under a negation. -/
def Pol.flip : Pol → Pol
  | .pos => .neg
  | .neg => .pos
  | .both => .both

mutual
/-- Local variables without a right-hand side are only in positive positions. -/
def IE.FreePos (p : Pol) : IE → Prop
  | .lit _ => True
  | .var _ => True
  | .add s t => s.FreePos p ∧ t.FreePos p
  | .div s t => s.FreePos p ∧ t.FreePos p
  | .let_ its t => its.FreePos p ∧ t.FreePos p
/-- Likewise. The right-hand side of a Boolean variable and the sides of an equivalence are in both positions. -/
def BE.FreePos (p : Pol) : BE → Prop
  | .var _ => True
  | .cmp _ s t => s.FreePos p ∧ t.FreePos p
  | .not e => e.FreePos p.flip
  | .and a b => a.FreePos p ∧ b.FreePos p
  | .or a b => a.FreePos p ∧ b.FreePos p
  | .iff a b => a.FreePos .both ∧ b.FreePos .both
  | .let_ its e => its.FreePos p ∧ e.FreePos p
/-- Likewise. -/
def Items.FreePos (p : Pol) : Items → Prop
  | .nil => True
  | .dcl _ t _ r => t.FreePos p ∧ r.FreePos p
  | .dclB _ e r => e.FreePos .both ∧ r.FreePos p
  | .free _ _ r => p = .pos ∧ r.FreePos p
  | .con e r => e.FreePos p ∧ r.FreePos p
end

/-- The declarations of a let. -/
def Items.names : Items → List Nat
  | .nil => []
  | .dcl x _ _ r => x :: r.names
  | .dclB x _ r => x :: r.names
  | .free x _ r => x :: r.names
  | .con _ r => r.names

mutual
/-- The declarations of each let are different and the domains of local variables without a right-hand side are not empty. -/
def IE.Fine : IE → Prop
  | .lit _ => True
  | .var _ => True
  | .add s t => s.Fine ∧ t.Fine
  | .div s t => s.Fine ∧ t.Fine
  | .let_ its t => its.names.Nodup ∧ its.Fine ∧ t.Fine
/-- Likewise. -/
def BE.Fine : BE → Prop
  | .var _ => True
  | .cmp _ s t => s.Fine ∧ t.Fine
  | .not e => e.Fine
  | .and a b => a.Fine ∧ b.Fine
  | .or a b => a.Fine ∧ b.Fine
  | .iff a b => a.Fine ∧ b.Fine
  | .let_ its e => its.names.Nodup ∧ its.Fine ∧ e.Fine
/-- Likewise. -/
def Items.Fine : Items → Prop
  | .nil => True
  | .dcl _ t _ r => t.Fine ∧ r.Fine
  | .dclB _ e r => e.Fine ∧ r.Fine
  | .free _ d r => d ≠ [] ∧ r.Fine
  | .con e r => e.Fine ∧ r.Fine
end

/-! ## The flat model -/

/-- The value of a flat expression. -/
def Atom.val (σ : Nat → Int) : Atom → Int
  | .lit v => v
  | .var k => σ k

/-- A Boolean flat expression is true. -/
def Atom.tr (σ : Nat → Int) (a : Atom) : Prop := a.val σ ≠ 0

open Classical in
/-- The value of a flat variable agrees with its definition. -/
def Def.Holds (σ : Nat → Int) (v : Int) : Def → Prop
  | .glob => True
  | .free d => v ∈ d
  | .add a b => v = a.val σ + b.val σ
  | .div a b => v = (a.val σ).tdiv (b.val σ)
  | .ne0 a => v = if a.val σ ≠ 0 then 1 else 0
  | .mem a d => v = if a.val σ ∈ d then 1 else 0
  | .cmp o a b => v = if o.holds (a.val σ) (b.val σ) = true then 1 else 0
  | .conj neg cs => v = if ((∀ a ∈ cs, a.tr σ) ↔ neg = false) then 1 else 0
  | .disj cs => v = if (∃ a ∈ cs, a.tr σ) then 1 else 0
  | .iff neg a b => v = if ((a.tr σ ↔ b.tr σ) ↔ neg = false) then 1 else 0

/-- A solution of the flat model. -/
def Ok (σ : Nat → Int) (st : St) : Prop :=
  (∀ (k : Nat) (d : Def), st.decls[k]? = some d → d.Holds σ (σ k)) ∧ ∀ a ∈ st.cons, a.tr σ

end Let
end MZ
