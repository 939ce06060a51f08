import Verif.Enums.Model
import Verif.Syntax.Spec

/-!
# Enumerated types: what they mean

A declaration lists the values of its type, in order (`vals`).  A value is an identifier, a constructor
applied to an element of its argument, or an anonymous value, which is known by its position only.  The
value at position `k` (counted from 1) is represented by the integer `k`.  `Val.dzn`, `Val.plain` and
`Val.json` are the three forms in which a value is printed.
-/

namespace MZ
namespace Enums

/-- The values of one part that come after `off` other values of the enumerated type `X`.  `vs` are the
values of the types declared before. -/
def partVals (vs : List (List Val)) (X : Str) (off : Nat) : Part → List Val
  | .ids names => names.map .id
  | .anon n => (List.range n.toNat).map (fun i => .anon X (off + i + 1 : Nat))
  | .anonSet s => (List.range s.length).map (fun i => .anon X (off + i + 1 : Nat))
  | .cons c (.enum k) => (vs.getD k []).map (.app c)
  | .cons c (.ints s) => s.map (fun i => .app c (.int i))
  | .cons c (.sub k s) => s.map (fun i => .app c ((vs.getD k []).getD (i - 1).toNat (.int 0)))

/-- The values of all parts. -/
def partsVals (vs : List (List Val)) (X : Str) : Nat → List Part → List Val
  | _, [] => []
  | off, p :: ps => partVals vs X off p ++ partsVals vs X (off + (partVals vs X off p).length) ps

/-- The values of a declaration. -/
def declVals (vs : List (List Val)) (d : Decl) : List Val := partsVals vs d.name 0 d.parts

/-- The values of all declarations, given those of the declarations before. -/
def valsFrom : List (List Val) → List Decl → List (List Val)
  | vs, [] => vs
  | vs, d :: ds => valsFrom (vs ++ [declVals vs d]) ds

/-- The values of all declarations. -/
def vals (ds : List Decl) : List (List Val) := valsFrom [] ds

/-- A set of integers, by its elements in increasing order. -/
def IsSet (s : List Int) : Prop := s.Pairwise (· < ·)

/-- The argument of a constructor is well-formed: an enumerated type that is declared before, a set of
integers, or a set of members of such a type. -/
def Arg.Ok (vs : List (List Val)) : Arg → Prop
  | .enum k => k < vs.length
  | .ints s => IsSet s
  | .sub k s => k < vs.length ∧ IsSet s ∧ ∀ i ∈ s, 1 ≤ i ∧ i ≤ (vs.getD k []).length

/-- The part is well-formed: the number of anonymous values is not negative. -/
def Part.Ok (vs : List (List Val)) : Part → Prop
  | .ids _ => True
  | .anon n => 0 ≤ n
  | .anonSet _ => True
  | .cons _ a => a.Ok vs

/-- All declarations are well-formed. -/
def OkFrom : List (List Val) → List Decl → Prop
  | _, [] => True
  | vs, d :: ds => (∀ p ∈ d.parts, p.Ok vs) ∧ OkFrom (vs ++ [declVals vs d]) ds

/-- All declarations are well-formed. -/
def Ok (ds : List Decl) : Prop := OkFrom [] ds

/-- Only the last part of a declaration may be an empty list of identifiers. -/
def NoGap (d : Decl) : Prop := ∀ i, d.parts[i]? = some (.ids []) → i + 1 = d.parts.length

/-- All identifiers of a declaration. -/
def Part.names : Part → List Str
  | .ids names => names
  | _ => []

/-- All constructors of a declaration. -/
def Part.conss : Part → List Str
  | .cons c _ => [c]
  | _ => []

/-- No name is declared twice, as the type checker ensures. -/
def Distinct (ds : List Decl) : Prop :=
  (ds.flatMap (fun d => d.parts.flatMap Part.names)).Nodup ∧
  (ds.flatMap (fun d => d.parts.flatMap Part.conss)).Nodup ∧
  (ds.map Decl.name).Nodup

/-- The expression that denotes a value. -/
def Val.expr : Val → Syn.E
  | .int i => .int i
  | .id n => .ref n
  | .anon X i => .call "to_enum".toList (.cons (.ref X) (.cons (.int i) .nil))
  | .app c v => .call c (.cons v.expr .nil)

/-- The text of a value, as `show` gives it. -/
def Val.plain : Val → Str
  | .int i => Syn.intText i
  | .id n => n
  | .anon X i => "to_enum(".toList ++ X ++ ",".toList ++ Syn.intText i ++ ")".toList
  | .app c v => c ++ "(".toList ++ v.plain ++ ")".toList

/-- The text of a value in a data file: identifiers are quoted where needed. -/
def Val.dzn : Val → Str
  | .int i => Syn.intText i
  | .id n => Lex.quoteId n
  | .anon X i => "to_enum(".toList ++ Lex.quoteId X ++ ",".toList ++ Syn.intText i ++ ")".toList
  | .app c v => Lex.quoteId c ++ "(".toList ++ v.dzn ++ ")".toList

/-- The text of a value in JSON. -/
def Val.json : Val → Str
  | .int i => Syn.intText i
  | .id n => "{\"e\":".toList ++ Lex.printLit n ++ "}".toList
  | .anon X i => "{\"e\":".toList ++ Lex.printLit X ++ ", \"i\":".toList ++ Syn.intText i ++ "}".toList
  | .app c v => "{ \"c\" : ".toList ++ Lex.printLit c ++ ", \"e\" : ".toList ++ v.json ++ "}".toList

/-- The three forms of printing. -/
inductive Mode where
  | plain | dzn | json
  deriving DecidableEq

/-- The flags that select the form. -/
def Mode.b : Mode → Bool
  | .dzn => true
  | _ => false

/-- The flags that select the form. -/
def Mode.j : Mode → Bool
  | .json => true
  | _ => false

/-- The text of a value in one of the forms. -/
def Val.text : Mode → Val → Str
  | .plain, v => v.plain
  | .dzn, v => v.dzn
  | .json, v => v.json

/-- No constructor has an argument that is a proper subset of an enumerated type. -/
def Decl.Whole (d : Decl) : Prop := ∀ p ∈ d.parts, ∀ c k s, p ≠ .cons c (.sub k s)

/-- The name of the type needs no quotes, if it has anonymous values. -/
def Decl.NameOk (d : Decl) : Prop := (∃ p ∈ d.parts, (∃ n, p = .anon n) ∨ ∃ s, p = .anonSet s) → Lex.quoteId d.name = d.name

/-- The conditions on a declaration under which its values are printed correctly in one of the forms. -/
def Decl.Prints (d : Decl) : Mode → Prop
  | .plain => True
  | .dzn => d.Whole ∧ d.NameOk
  | .json => d.Whole

/-- The parts of a declaration from left to right. -/
def Rhs.parts {A} : Rhs A → List (List Str ⊕ A)
  | .set names => [.inl names]
  | .arr names => [.inl names]
  | .constructors ps => ps
  | .call c => [.inr c]
  | .append l r => l.parts ++ r.parts

end Enums
end MZ
