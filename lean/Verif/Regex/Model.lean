import Verif.Ext.Model
import Verif.IntVal.Model
import Mathlib.Data.Finset.Max

/-!
# Regular expressions in `regular`

`lib/support/regex/lexer.lxx` and `lib/support/regex/parser.yxx`: the text of a regular expression becomes a `REG` of Gecode.
`lib/builtins.cpp:3674-3850`: names of enumerated types are replaced by numbers, and the automaton that Gecode computes becomes
the arguments of `regular`.

Simplified: the parser generated by bison for a grammar without conflicts is written as a recursive descent parser, whose functions
stand for the rules; memory management is left out; domains are finite, and their values are in the range of `int`.
-/

namespace MZ
namespace Regex

/-! ## The lexer -/

/-- Tokens, `lib/support/regex/parser.yxx:46-61`. -/
inductive Tok where
  | int (n : Nat)
  | gopen | gclose | star | plus | any | union | opt | qopen | qclose | comma | copen | cclose | range | neg
  deriving DecidableEq

/-- The value of a digit, `lib/support/regex/lexer.lxx:31`. -/
def digit (c : Char) : Option Nat := if '0' ≤ c ∧ c ≤ '9' then some (c.toNat - '0'.toNat) else none

/-- Tokens of one character, `lib/support/regex/lexer.lxx:32-45`. -/
def symbol (c : Char) : Option Tok :=
  match c with
  | '|' => some .union
  | '+' => some .plus
  | '*' => some .star
  | '(' => some .gopen
  | ')' => some .gclose
  | '?' => some .opt
  | '{' => some .qopen
  | '}' => some .qclose
  | ',' => some .comma
  | '.' => some .any
  | '[' => some .copen
  | ']' => some .cclose
  | '-' => some .range
  | '^' => some .neg
  | _ => none

/-- The end of a number: `std::stoi` throws for numbers that are not in the range of `int`, `lib/support/regex/lexer.lxx:31`. -/
def flush : Option Nat → Option (List Tok)
  | none => some []
  | some n => if n ≤ 2147483647 then some [.int n] else none

/-- The lexer, `lib/support/regex/lexer.lxx:28-50`; the second argument is the value of the digits read before. -/
def lex : List Char → Option Nat → Option (List Tok)
  | [], p => flush p
  | c :: s, p =>
    match digit c with
    | some d => lex s (some (p.getD 0 * 10 + d))
    | none =>
      if c = ' ' ∨ c = '\t' ∨ c = '\n' then do some ((← flush p) ++ (← lex s none))
      else
        match symbol c with
        | some t => do some ((← flush p) ++ t :: (← lex s none))
        | none => none

/-! ## The parser -/

/-- The operations on `REG` of Gecode that `lib/support/regex/parser.yxx:70-176` uses. -/
inductive Reg where
  /-- `REG(n)` -/
  | sym (n : Int)
  /-- `REG(IntArgs)` -/
  | anyOf (l : List Int)
  /-- `r | s` -/
  | alt (r s : Reg)
  /-- `r + s` -/
  | cat (r s : Reg)
  /-- `*r` -/
  | star (r : Reg)
  /-- `+r` -/
  | plus (r : Reg)
  /-- `r(n, m)` -/
  | quant (r : Reg) (n m : Nat)
  /-- `r(n)` -/
  | atLeast (r : Reg) (n : Nat)
  deriving DecidableEq

/-- `REG(IntArgs)`: Gecode throws for an array without elements, `lib/support/regex/parser.yxx:133,143,158`. -/
def anyOf (l : List Int) : Option Reg := if l = [] then none else some (.anyOf l)

/-- The values from `a` to `b`: `IntArgs::create` and the loops, `lib/support/regex/parser.yxx:131-132,147-149,190-192`. -/
def upto (a b : Int) : List Int := (List.range (b - a + 1).toNat).map (fun k : Nat => a + (k : Int))

/-- `set_item`, `lib/support/regex/parser.yxx:174-194`. -/
def setItem : List Tok → Option (List Int × List Tok)
  | .int a :: .range :: .int b :: ts => some (if b < a then upto b a else upto a b, ts)
  | .int _ :: .range :: _ => none
  | .int a :: ts => some ([(a : Int)], ts)
  | _ => none

/-- `set_items`, `lib/support/regex/parser.yxx:164-172`; the list stands for the set. -/
def setItems : Nat → List Tok → Option (List Int × List Tok)
  | 0, _ => none
  | n + 1, ts => do
    let (l, ts) ← setItem ts
    match ts with
    | .int _ :: _ => do
      let (l', ts) ← setItems n ts
      some (l ++ l', ts)
    | _ => some (l, ts)

/-- The values of the domain that are not in the class, `lib/support/regex/parser.yxx:147-157`. -/
def complement (lo hi : Int) (l : List Int) : List Int := (upto lo hi).filter (fun v => decide (v ∉ l))

/-- The quantifiers of `factor`, `lib/support/regex/parser.yxx:93-123`. -/
def quantifier (r : Reg) : List Tok → Option (Reg × List Tok)
  | .star :: ts => some (.star r, ts)
  | .plus :: ts => some (.plus r, ts)
  | .opt :: ts => some (.quant r 0 1, ts)
  | .qopen :: .int n :: .qclose :: ts => some (.quant r n n, ts)
  | .qopen :: .int n :: .comma :: .qclose :: ts => some (.atLeast r n, ts)
  | .qopen :: .int n :: .comma :: .int m :: .qclose :: ts => some (.quant r n m, ts)
  | .qopen :: _ => none
  | ts => some (r, ts)

/-- The first tokens of `factor`, `lib/support/regex/parser.yxx:125-160`. -/
def startsAtom : List Tok → Bool
  | .int _ :: _ => true
  | .any :: _ => true
  | .copen :: _ => true
  | .gopen :: _ => true
  | _ => false

mutual

/-- `atom`, `lib/support/regex/parser.yxx:125-162`; `lo` and `hi` are the bounds of the domain. -/
def atom (lo hi : Int) : Nat → List Tok → Option (Reg × List Tok)
  | 0, _ => none
  | n + 1, ts =>
    match ts with
    | .int a :: ts => some (.sym a, ts)
    | .any :: ts => do some (← anyOf (upto lo hi), ts)
    | .copen :: .neg :: ts => do
      let (l, ts) ← setItems ts.length ts
      match ts with
      | .cclose :: ts => do some (← anyOf (complement lo hi l), ts)
      | _ => none
    | .copen :: ts => do
      let (l, ts) ← setItems ts.length ts
      match ts with
      | .cclose :: ts => do some (← anyOf l, ts)
      | _ => none
    | .gopen :: ts => do
      let (r, ts) ← expression lo hi n ts
      match ts with
      | .gclose :: ts => some (r, ts)
      | _ => none
    | _ => none

/-- `term` and `factor`, `lib/support/regex/parser.yxx:82-123`. -/
def term (lo hi : Int) : Nat → List Tok → Option (Reg × List Tok)
  | 0, _ => none
  | n + 1, ts => do
    let (r, ts) ← atom lo hi n ts
    let (f, ts) ← quantifier r ts
    if startsAtom ts then
      let (t, ts) ← term lo hi n ts
      some (.cat f t, ts)
    else some (f, ts)

/-- `expression`, `lib/support/regex/parser.yxx:73-80`. -/
def expression (lo hi : Int) : Nat → List Tok → Option (Reg × List Tok)
  | 0, _ => none
  | n + 1, ts => do
    let (t, ts) ← term lo hi n ts
    match ts with
    | .union :: ts => do
      let (e, ts) ← expression lo hi n ts
      some (.alt t e, ts)
    | _ => some (t, ts)

end

/-- `regex_from_string`, `lib/support/regex/parser.yxx:66-71,203-212`: everything must be read. -/
def parse (lo hi : Int) (ts : List Tok) : Option Reg := do
  match ← expression lo hi (3 * ts.length + 3) ts with
  | (r, []) => some r
  | _ => none

/-! ## Names of enumerated types -/

/-- `env.reverseEnum`: what a name stands for: a value, or a constructor, whose call may be undefined, `lib/builtins.cpp:3721-3761`. -/
inductive Meaning where
  | value (v : Nat)
  | ctor (f : Nat → Option Nat)

/-- `[A-Za-z]`, `lib/builtins.cpp:3697`. -/
def letter (c : Char) : Bool := ('A' ≤ c ∧ c ≤ 'Z') ∨ ('a' ≤ c ∧ c ≤ 'z')

/-- `[A-Za-z0-9_]`, `lib/builtins.cpp:3697`. -/
def idChar (c : Char) : Bool := letter c ∨ ('0' ≤ c ∧ c ≤ '9') ∨ c = '_'

/-- `[0-9]`, `lib/builtins.cpp:3698`. -/
def isDigit (c : Char) : Bool := '0' ≤ c ∧ c ≤ '9'

/-- `[[:space:]]`, `lib/builtins.cpp:3697`. -/
def space (c : Char) : Bool := c = ' ' ∨ c = '\t' ∨ c = '\n' ∨ c = '\x0b' ∨ c = '\x0c' ∨ c = '\r'

/-- The expression `constructor_call` at the beginning of a text, `lib/builtins.cpp:3696-3699`: the name, the argument, and the rest.  Names in
quotes are left out: whichever way they are matched they end in an error, as the names in `reverseEnum` have no quotes. -/
def matchCall (s : List Char) : Option (List Char × List Char × List Char) :=
  match s with
  | [] => none
  | c :: _ =>
    if letter c then
      match (s.dropWhile idChar).dropWhile space with
      | '(' :: r =>
        let r := r.dropWhile space
        let p := match r with
          | d :: _ => if letter d then idChar else isDigit
          | [] => isDigit
        match (r.dropWhile p).dropWhile space with
        | ')' :: rest => some (s.takeWhile idChar, r.takeWhile p, rest)
        | _ => none
      | _ => none
    else none

/-- The decimal digits of a number, `oss << result`, `lib/builtins.cpp:3757`. -/
def decimal (n : Nat) : List Char := Nat.toDigits 10 n

/-- `std::stoi(val3)`, or the value of the name, `lib/builtins.cpp:3718-3736`. -/
def argValue (names : List Char → Option Meaning) (a : List Char) : Res Nat :=
  match a with
  | [] => .err
  | c :: _ =>
    if isDigit c then
      let n := a.foldl (fun n c => n * 10 + (c.toNat - '0'.toNat)) 0
      if n ≤ 2147483647 then .ok n else .err
    else
      match names a with
      | some (.value v) => .ok v
      | _ => .err

/-- What replaces a call, `lib/builtins.cpp:3737-3759`. -/
def callText (names : List Char → Option Meaning) (f a : List Char) : Res (List Char) := do
  let x ← argValue names a
  match names f with
  | none => .err
  | some (.value v) => .ok (decimal v ++ ['('] ++ decimal x ++ [')'])
  | some (.ctor g) =>
    match g x with
    | some v => .ok (decimal v)
    | none => .err

/-- One round over the text, `lib/builtins.cpp:3700-3760`: names that are not called are kept as a whole, because the expression cannot match
from within a name if it does not match from its start. -/
def calls (names : List Char → Option Meaning) : Nat → List Char → Res (List Char)
  | 0, _ => .ok []
  | _ + 1, [] => .ok []
  | n + 1, c :: s =>
    match matchCall (c :: s) with
    | some (f, a, rest) => do .ok ((← callText names f a) ++ (← calls names n rest))
    | none =>
      if letter c then do
        .ok ((c :: s).takeWhile idChar ++ (← calls names n ((c :: s).dropWhile idChar)))
      else do .ok (c :: (← calls names n s))

/-- `std::regex_search(expr, constructor_call)`, `lib/builtins.cpp:3700`. -/
def hasCall : List Char → Bool
  | [] => false
  | c :: s => (matchCall (c :: s)).isSome || hasCall s

/-- The loop, `lib/builtins.cpp:3700-3761`; each round removes letters. -/
def allCalls (names : List Char → Option Meaning) : Nat → List Char → Res (List Char)
  | 0, s => .ok s
  | n + 1, s =>
    if hasCall s then do allCalls names n (← calls names s.length s)
    else .ok s

/-- The remaining names, `lib/builtins.cpp:3763-3794`. -/
def idents (names : List Char → Option Meaning) : Nat → List Char → Res (List Char)
  | 0, _ => .ok []
  | _ + 1, [] => .ok []
  | n + 1, c :: s =>
    if letter c then
      match names ((c :: s).takeWhile idChar) with
      | some (.value v) => do .ok (decimal v ++ (← idents names n ((c :: s).dropWhile idChar)))
      | _ => .err
    else if c = '\'' then .err
    else do .ok (c :: (← idents names n s))

/-- The text that is parsed, `lib/builtins.cpp:3695-3794`. -/
def replaceNames (names : List Char → Option Meaning) (s : List Char) : Res (List Char) := do
  let s ← allCalls names s.length s
  idents names s.length s

/-! ## The arguments of `regular` -/

/-- The automaton of Gecode: states `0 .. nStates - 1`, state 0 is the first, `final_fst .. final_lst - 1` are final; the transitions in
the order of `DFA::Transitions`, `lib/builtins.cpp:3801-3815`. -/
structure Dfa where
  nStates : Nat
  trans : List (Nat × Int × Nat)
  finalFst : Nat
  finalLst : Nat

/-- The table `reg_trans`, `lib/builtins.cpp:3803-3815`; rows and columns are counted from 0. -/
def table (lo hi : Int) : List (Nat × Int × Nat) → (Nat → Int → Int) → Nat → Int → Int
  | [], d => d
  | (i, a, o) :: l, d =>
    table lo hi l (if lo ≤ a ∧ a ≤ hi then fun i' c => if i' = i ∧ c = a + (1 - lo) - 1 then (o : Int) + 1 else d i' c else d)

/-- `fzn_regular(vars, expr)` for the automaton of the expression, `lib/builtins.cpp:3801-3848`; `lo` and `hi` are the bounds of the domain. -/
noncomputable def post (lo hi : Int) (a : Dfa) (xs : Globals.Arr Int) : Option Prop :=
  let d := table lo hi a.trans (fun _ _ => 0)
  Ext.regular (if 1 - lo = 0 then xs else xs.compr (· + (1 - lo))) a.nStates (hi - lo + 1)
    ⟨1, a.nStates, 1, hi - lo + 1, fun i j => d (i - 1).toNat (j - 1)⟩ 1
    ((Finset.range a.finalLst).filter (fun q => a.finalFst + 1 ≤ q + 1) |>.image (fun q : Nat => (q : Int) + 1))

/-- `b_regular_from_string`, `lib/builtins.cpp:3674-3850`: `doms` are the domains of the variables, `dfa` is the function of Gecode; the first
`none` is a syntax error, the second a failed assertion in `regular`.  Without variables the bounds are not defined; `S` is then 0. -/
noncomputable def regularFromString (dfa : Reg → Dfa) (names : List Char → Option Meaning) (doms : List (Finset Int)) (text : List Char)
    (xs : Globals.Arr Int) : Res (Option Prop) :=
  let dom := doms.foldl (· ∪ ·) ∅
  do
    let s ← replaceNames names text
    match lex s none with
    | none => .err
    | some ts =>
      if h : dom.Nonempty then
        match parse (dom.min' h) (dom.max' h) ts with
        | none => .err
        | some r => .ok (post (dom.min' h) (dom.max' h) (dfa r) xs)
      else
        match parse 1 0 ts with
        | none => .err
        | some r => .ok (post 1 0 (dfa r) xs)

end Regex
end MZ
