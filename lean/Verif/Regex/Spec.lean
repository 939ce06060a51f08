import Verif.Regex.Model
import Mathlib.Computability.Language

/-!
# What regular expressions mean

From the documentation of `regular` (`share/minizinc/std/regular_regexp.mzn`): the syntax of regular expressions, and the sequences that each
of them accepts, as formal languages.  And what is trusted about Gecode.
-/

namespace MZ
namespace Regex

/-- The members of a class: a value, or the values between two values. -/
inductive Item where
  | one (a : Nat)
  | between (a b : Nat)
  deriving DecidableEq

/-- The documented regular expressions. -/
inductive Re where
  | num (n : Nat)
  | any
  | cls (l : List Item)
  | notCls (l : List Item)
  | alt (r s : Re)
  | cat (r s : Re)
  | star (r : Re)
  | optional (r : Re)
  | plus (r : Re)
  | exact (r : Re) (n : Nat)
  | atLeast (r : Re) (n : Nat)
  | between (r : Re) (n m : Nat)
  deriving DecidableEq

/-- A value is described by a member of a class; the ends of a range may be given in any order. -/
def Item.Has (v : Int) : Item → Prop
  | .one a => v = a
  | .between a b => (a : Int) ≤ v ∧ v ≤ b ∨ (b : Int) ≤ v ∧ v ≤ a

/-- Sequences of one value with a property. -/
def single (p : Int → Prop) : Language Int := {w | ∃ v, p v ∧ w = [v]}

/-- Between `n` and `m` sequences of a language, one after the other. -/
def times (L : Language Int) (n m : Nat) : Language Int := {w | ∃ k, n ≤ k ∧ k ≤ m ∧ w ∈ L ^ k}

/-- The sequences that an expression accepts; `dom` is the domain of the variables. -/
def Re.lang (dom : Int → Prop) : Re → Language Int
  | .num n => single (· = n)
  | .any => single dom
  | .cls l => single (fun v => ∃ i ∈ l, i.Has v)
  | .notCls l => single (fun v => dom v ∧ ¬ ∃ i ∈ l, i.Has v)
  | .alt r s => r.lang dom + s.lang dom
  | .cat r s => r.lang dom * s.lang dom
  | .star r => KStar.kstar (r.lang dom)
  | .optional r => 1 + r.lang dom
  | .plus r => r.lang dom * KStar.kstar (r.lang dom)
  | .exact r n => r.lang dom ^ n
  | .atLeast r n => r.lang dom ^ n * KStar.kstar (r.lang dom)
  | .between r n m => times (r.lang dom) n m

/-- The first number of every `{n,m}` is not greater than the second. -/
def Re.Ordered : Re → Prop
  | .num _ | .any | .cls _ | .notCls _ => True
  | .alt r s | .cat r s => r.Ordered ∧ s.Ordered
  | .star r | .optional r | .plus r | .exact r _ | .atLeast r _ => r.Ordered
  | .between r n m => n ≤ m ∧ r.Ordered

/-- Every wildcard and class can be matched by a value between `lo` and `hi`. -/
def Re.Inhabited (lo hi : Int) : Re → Prop
  | .num _ => True
  | .any => lo ≤ hi
  | .cls _ => True
  | .notCls l => ∃ v, lo ≤ v ∧ v ≤ hi ∧ ¬ ∃ i ∈ l, i.Has v
  | .alt r s | .cat r s => r.Inhabited lo hi ∧ s.Inhabited lo hi
  | .star r | .optional r | .plus r | .exact r _ | .atLeast r _ | .between r _ _ => r.Inhabited lo hi

/-! ## Syntax -/

/-- How the members of a class are written. -/
inductive Items : List Tok → List Item → Prop
  | one (a) : Items [.int a] [.one a]
  | range (a b) : Items [.int a, .range, .int b] [.between a b]
  | consOne (a) {ts l} : Items ts l → Items (.int a :: ts) (.one a :: l)
  | consRange (a b) {ts l} : Items ts l → Items (.int a :: .range :: .int b :: ts) (.between a b :: l)

/-- Kinds of expressions: alternatives, sequences, expressions with at most one quantifier, and without. -/
inductive Kind where
  | expr | term | factor | atom
  deriving DecidableEq

/-- How expressions are written. -/
inductive Written : Kind → List Tok → Re → Prop
  | num (n) : Written .atom [.int n] (.num n)
  | any : Written .atom [.any] .any
  | cls {ts l} : Items ts l → Written .atom (.copen :: (ts ++ [.cclose])) (.cls l)
  | notCls {ts l} : Items ts l → Written .atom (.copen :: .neg :: (ts ++ [.cclose])) (.notCls l)
  | group {ts r} : Written .expr ts r → Written .atom (.gopen :: (ts ++ [.gclose])) r
  | plain {ts r} : Written .atom ts r → Written .factor ts r
  | star {ts r} : Written .atom ts r → Written .factor (ts ++ [.star]) (.star r)
  | plus {ts r} : Written .atom ts r → Written .factor (ts ++ [.plus]) (.plus r)
  | optional {ts r} : Written .atom ts r → Written .factor (ts ++ [.opt]) (.optional r)
  | exact {ts r} (n) : Written .atom ts r → Written .factor (ts ++ [.qopen, .int n, .qclose]) (.exact r n)
  | atLeast {ts r} (n) : Written .atom ts r → Written .factor (ts ++ [.qopen, .int n, .comma, .qclose]) (.atLeast r n)
  | between {ts r} (n m) : Written .atom ts r → Written .factor (ts ++ [.qopen, .int n, .comma, .int m, .qclose]) (.between r n m)
  | last {ts r} : Written .factor ts r → Written .term ts r
  | cat {ts r us s} : Written .factor ts r → Written .term us s → Written .term (ts ++ us) (.cat r s)
  | only {ts r} : Written .term ts r → Written .expr ts r
  | alt {ts r us s} : Written .term ts r → Written .expr us s → Written .expr (ts ++ .union :: us) (.alt r s)

/-! ## Gecode -/

/-- What is trusted about `REG`: the language of each operation.  Nothing is said about `r(n, m)` with `n > m`. -/
structure Gecode where
  lang : Reg → Language Int
  sym : ∀ n, lang (.sym n) = single (· = n)
  anyOf : ∀ l, lang (.anyOf l) = single (· ∈ l)
  alt : ∀ r s, lang (.alt r s) = lang r + lang s
  cat : ∀ r s, lang (.cat r s) = lang r * lang s
  star : ∀ r, lang (.star r) = KStar.kstar (lang r)
  plus : ∀ r, lang (.plus r) = lang r * KStar.kstar (lang r)
  quant : ∀ r n m, n ≤ m → lang (.quant r n m) = times (lang r) n m
  atLeast : ∀ r n, lang (.atLeast r n) = lang r ^ n * KStar.kstar (lang r)

/-- An automaton accepts a sequence from a state. -/
def Dfa.Accepts (a : Dfa) : Nat → List Int → Prop
  | q, [] => a.finalFst ≤ q ∧ q < a.finalLst
  | q, v :: w => ∃ q', (q, v, q') ∈ a.trans ∧ a.Accepts q' w

/-- What is trusted about `DFA`: a deterministic automaton for the language, with the states that it says. -/
structure Dfa.For (a : Dfa) (L : Language Int) : Prop where
  accepts : ∀ w, a.Accepts 0 w ↔ w ∈ L
  det : ∀ q v q₁ q₂, (q, v, q₁) ∈ a.trans → (q, v, q₂) ∈ a.trans → q₁ = q₂
  states : ∀ q v q', (q, v, q') ∈ a.trans → q < a.nStates ∧ q' < a.nStates
  first : 0 < a.nStates
  final : a.finalLst ≤ a.nStates

end Regex
end MZ
