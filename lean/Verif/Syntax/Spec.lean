import Verif.Syntax.Model

/-!
# Operator expressions: what they mean

A reader of the round-trip theorem needs the following: the value of an expression under an arbitrary
interpretation of its parts (`Alg`, `eval`), the sorts of expressions (`Sorted`), and the list of
expressions for which the printer's text is known to be safe (`Clean`).
-/

namespace MZ
namespace Syn

/-- An interpretation of literals, names, calls and operators.  The only laws are that a sign before a
literal computes the literal with that sign, and that concatenation is associative. -/
structure Alg where
  D : Type
  lit : Int → D
  ref : List Char → D
  call : List Char → List D → D
  bin : Op → D → D → D
  un : UOp → D → D
  neg_lit : ∀ i, un .minus (lit i) = lit (-i)
  pos_lit : ∀ i, un .plus (lit i) = lit i
  assoc : ∀ x y z, bin .plusplus x (bin .plusplus y z) = bin .plusplus (bin .plusplus x y) z

mutual
/-- The value of an expression. -/
def eval (A : Alg) : E → A.D
  | .int i => A.lit i
  | .ref s => A.ref s
  | .range a b => A.bin .dotdot (A.lit a) (A.lit b)
  | .call f args => A.call f (evalArgs A args)
  | .bin o l r => A.bin o (eval A l) (eval A r)
  | .un u e => A.un u (eval A e)

def evalArgs (A : Alg) : Es → List A.D
  | .nil => []
  | .cons e r => eval A e :: evalArgs A r
end

/-- Sorts of values; `other` are arrays, strings, tuples and so on. -/
inductive Srt where
  | bool | num | set | other
  deriving DecidableEq, Repr

/-- A value of the first sort can be used as one of the second: Booleans coerce to numbers. -/
def Fits (a b : Srt) : Prop := a = b ∨ (a = .bool ∧ b = .num)

mutual
/-- `Sorted Γ e s`: the expression has sort `s`, if names and calls have the sorts given by `Γ`. -/
def Sorted (Γ : List Char → Srt) : E → Srt → Prop
  | .int _, s => s = .num
  | .ref x, s => Fits (Γ x) s
  | .range _ _, s => s = .set
  | .call f args, s => Fits (Γ f) s ∧ SortedL Γ args
  | .un .not e, s => Sorted Γ e .bool ∧ Fits .bool s
  | .un _ e, s => Sorted Γ e .num ∧ s = .num
  | .bin o l r, s =>
    match o with
    | .equiv | .impl | .rimpl | .or | .xor | .and => Sorted Γ l .bool ∧ Sorted Γ r .bool ∧ Fits .bool s
    | .le | .lq | .gr | .gq | .eq | .nq => (∃ t, Sorted Γ l t ∧ Sorted Γ r t) ∧ Fits .bool s
    | .isIn => Sorted Γ l .num ∧ Sorted Γ r .set ∧ Fits .bool s
    | .subset | .superset => Sorted Γ l .set ∧ Sorted Γ r .set ∧ Fits .bool s
    | .union | .diff | .symdiff | .intersect => Sorted Γ l .set ∧ Sorted Γ r .set ∧ s = .set
    | .dotdot => Sorted Γ l .num ∧ Sorted Γ r .num ∧ s = .set
    | .plus | .minus | .mult | .div | .idiv | .mod | .pow => Sorted Γ l .num ∧ Sorted Γ r .num ∧ s = .num
    | .plusplus => Sorted Γ l .other ∧ Sorted Γ r .other ∧ s = .other

/-- Every argument has some sort. -/
def SortedL (Γ : List Char → Srt) : Es → Prop
  | .nil => True
  | .cons e r => (∃ t, Sorted Γ e t) ∧ SortedL Γ r
end

/-- The expression starts with a sign. -/
def E.signed : E → Bool
  | .int i => decide (i < 0)
  | .un .minus _ => true
  | .un .plus _ => true
  | _ => false

/-- The expression is a power whose exponent is signed. -/
def E.powSigned : E → Bool
  | .bin .pow _ r => r.signed
  | _ => false

/-- The expression is a name or a literal without sign, or is put in parentheses as the left operand of a
power. -/
def E.base (l : E) : Bool :=
  match l with
  | .int i => decide (0 ≤ i)
  | .ref _ => true
  | l => parenL .pow l

/-- The value of a literal with any number of signs before it. -/
def E.literal : E → Option Int
  | .int i => some i
  | .un .minus e => e.literal.map (fun i => -i)
  | .un .plus e => e.literal
  | _ => none

/-- A name the lexer can deliver, other than the three that are not printed correctly (C50). -/
def Name (s : List Char) : Prop :=
  (∃ src r, Lex.lexWord src = (.ident s, r)) ∧ s ∉ [['_'], "infinity".toList, "variant_record".toList]

mutual
/-- The expressions for which the round trip is proved.
* Literals are representable; the operand of a unary minus is not the smallest integer.
* The right operand of `+` does not start with a plus sign, unless it is put in parentheses.
* The base of a power is not signed, nor a power with a signed exponent; an exponent (not in parentheses)
  whose text starts with `-1` is exactly `-1`, and then the base is a name, a literal or in parentheses. -/
def Clean : E → Prop
  | .int i => inLL i
  | .ref s => Name s
  | .range a b => inLL a ∧ inLL b ∧ a ≤ b
  | .call f args => Name f ∧ CleanL args
  | .un u e => Clean e ∧ ¬ (u = .minus ∧ e.literal = some LMIN)
  | .bin o l r => Clean l ∧ Clean r ∧
      (o = .plus → parenR .plus r = false → (print r).head? ≠ some '+') ∧
      (o = .pow → l.signed = false ∧ l.powSigned = false ∧
        (parenR .pow r = false → ['-', '1'] <+: print r → print r = ['-', '1'] ∧ l.base = true))

def CleanL : Es → Prop
  | .nil => True
  | .cons e r => Clean e ∧ CleanL r
end

mutual
/-- Expressions that come back with exactly the same structure: no sign before a literal, no range of two
literals that is not a set literal, no concatenation as the right operand of a concatenation. -/
def Canonical : E → Prop
  | .int _ => True
  | .ref _ => True
  | .range _ _ => True
  | .call _ args => CanonicalL args
  | .un u e => Canonical e ∧ (u ≠ .not → ∀ i, e ≠ .int i)
  | .bin o l r => Canonical l ∧ Canonical r ∧ (o = .dotdot → ¬ ∃ i j, l = .int i ∧ r = .int j) ∧
      (o = .plusplus → ∀ x y, r ≠ .bin .plusplus x y)

def CanonicalL : Es → Prop
  | .nil => True
  | .cons e r => Canonical e ∧ CanonicalL r
end

end Syn
end MZ
