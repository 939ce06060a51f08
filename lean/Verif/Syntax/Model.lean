import Verif.Lex.Ident
import Verif.Lex.Num

/-!
# Operator expressions: printer, lexer and parser

The printer of `lib/prettyprinter.cpp` for integer literals, identifiers, calls, range literals and
operator expressions (without annotations); the lexer rules of `lib/lexer.lxx` for the text this
gives; and the `expr` rules of `lib/parser.yxx` as the shift-reduce automaton that bison builds from
them, in which every shift/reduce conflict is resolved by the declared precedences.
-/

namespace MZ
namespace Syn

/-- `BinOpType`, `include/minizinc/ast.hh:1156-1185`. -/
inductive Op where
  | plus | minus | mult | div | idiv | mod | pow
  | le | lq | gr | gq | eq | nq
  | isIn | subset | superset | union | diff | symdiff | intersect
  | plusplus | equiv | impl | rimpl | or | and | xor | dotdot
  deriving DecidableEq, Repr

/-- `UnOpType`, `include/minizinc/ast.hh:1235`. -/
inductive UOp where
  | not | plus | minus
  deriving DecidableEq, Repr

mutual
/-- Expressions: `IntLit`, `Id`, a `SetLit` that is one range, `Call`, `BinOp` and `UnOp`. -/
inductive E where
  | int (i : Int)
  | ref (s : List Char)
  | range (a b : Int)
  | call (f : List Char) (args : Es)
  | bin (o : Op) (l r : E)
  | un (u : UOp) (e : E)
/-- Lists of expressions. -/
inductive Es where
  | nil
  | cons (e : E) (r : Es)
end

/-- The arguments as a list, and back. -/
def Es.toList : Es → List E
  | .nil => []
  | .cons e r => e :: r.toList

def Es.ofList : List E → Es
  | [] => .nil
  | e :: l => .cons e (Es.ofList l)

/-! ## Printer -/

/-- `precedence` of a binary operator, `lib/prettyprinter.cpp:37-80`. -/
def Op.prec : Op → Nat
  | .equiv => 1200
  | .impl | .rimpl => 1100
  | .or | .xor => 1000
  | .and => 900
  | .le | .lq | .gr | .gq | .eq | .nq => 800
  | .isIn | .subset | .superset => 700
  | .union | .diff | .symdiff => 600
  | .dotdot => 500
  | .plus | .minus => 400
  | .mult | .idiv | .mod | .div | .intersect => 300
  | .pow | .plusplus => 200

/-- `precedence`, `lib/prettyprinter.cpp:35-88`. -/
def E.prec : E → Nat
  | .bin o _ _ => o.prec
  | _ => 0

/-- `Assoc`, `lib/prettyprinter.cpp:90`. -/
inductive Assoc where
  | left | right | none
  deriving DecidableEq, Repr

/-- `assoc`, `lib/prettyprinter.cpp:92-110`. -/
def Op.assoc : Op → Assoc
  | .le | .lq | .gr | .gq | .nq | .eq | .isIn | .subset | .superset | .dotdot => .none
  | .plusplus => .right
  | _ => .left

/-- `need_parentheses`, left operand, `lib/prettyprinter.cpp:114-121`. -/
def parenL (o : Op) (l : E) : Bool :=
  decide (o.prec < l.prec) || (decide (o.prec = l.prec) && decide (o.assoc ≠ .left))

/-- `need_parentheses`, right operand, `lib/prettyprinter.cpp:114-121`. -/
def parenR (o : Op) (r : E) : Bool :=
  decide (o.prec < r.prec) || (decide (o.prec = r.prec) && decide (o.assoc ≠ .right))

/-- The text of a binary operator, `lib/prettyprinter.cpp:631-719`. -/
def Op.text : Op → List Char
  | .plus => "+".toList
  | .minus => "-".toList
  | .mult => "*".toList
  | .pow => "^".toList
  | .div => "/".toList
  | .idiv => " div ".toList
  | .mod => " mod ".toList
  | .le => " < ".toList
  | .lq => "<=".toList
  | .gr => " > ".toList
  | .gq => ">=".toList
  | .eq => "==".toList
  | .nq => "!=".toList
  | .isIn => " in ".toList
  | .subset => " subset ".toList
  | .superset => " superset ".toList
  | .union => " union ".toList
  | .diff => " diff ".toList
  | .symdiff => " symdiff ".toList
  | .intersect => " intersect ".toList
  | .plusplus => "++".toList
  | .equiv => " <-> ".toList
  | .impl => " -> ".toList
  | .rimpl => " <- ".toList
  | .or => " \\/ ".toList
  | .and => " /\\ ".toList
  | .xor => " xor ".toList
  | .dotdot => "..".toList

/-- The text of a unary operator, `lib/prettyprinter.cpp:731-744`. -/
def UOp.text : UOp → List Char
  | .not => "not ".toList
  | .plus => "+".toList
  | .minus => "-".toList

/-- The operand of a unary operator is put in parentheses, `lib/prettyprinter.cpp:745-746`, for an
expression without annotations. -/
def parenU : E → Bool
  | .bin _ _ _ => true
  | .un _ _ => true
  | _ => false

/-- Printing an integer, `os << s.toInt()`, `include/minizinc/values.hh:291-301`. -/
def intText (i : Int) : List Char := (if i < 0 then ['-'] else []) ++ Nat.toDigits 10 i.natAbs

/-- Parentheses around a text if `b`, `lib/prettyprinter.cpp:624-630`, `:721-727`, `:747-753`. -/
def wrap (b : Bool) (t : List Char) : List Char := if b then '(' :: t ++ [')'] else t

mutual
/-- `PlainPrinter::p`, `lib/prettyprinter.cpp:296-771`, for the expressions of this model.  A call of
`default` with two arguments is printed differently (`:757-762`) and is not modelled.  A range
literal is printed by `operator<<` for integer sets, `include/minizinc/values.hh:765-803`, and `{}` if
it is empty (`lib/prettyprinter.cpp:327-328`). -/
def print : E → List Char
  | .int i => intText i
  | .ref s => Lex.quoteId s
  | .range a b => if b < a then "{}".toList else intText a ++ "..".toList ++ intText b
  | .call f args => Lex.quoteId f ++ '(' :: printArgs true args ++ [')']
  | .bin o l r => wrap (parenL o l) (print l) ++ o.text ++ wrap (parenR o r) (print r)
  | .un u e => u.text ++ wrap (parenU e) (print e)

/-- The arguments of a call, `lib/prettyprinter.cpp:764-770`. -/
def printArgs : Bool → Es → List Char
  | _, .nil => []
  | first, .cons e r => (if first then [] else [',']) ++ print e ++ printArgs false r
end

/-! ## Lexer -/

/-- Tokens; `bad` stands for every token that is not listed (the parser model rejects it). -/
inductive Tok where
  | op (o : Op)
  | not
  | int (v : Int)
  /-- `MZN_MAX_NEGATIVE_INTEGER_LITERAL` -/
  | maxNeg
  | ident (s : List Char)
  | lpar
  | rpar
  | comma
  /-- `MZN_POW_MINUS1` -/
  | powm1
  | bad
  deriving DecidableEq, Repr

/-- White space, `lib/lexer.lxx:167-168`. -/
def isWs (c : Char) : Bool :=
  decide (c = ' ') || decide (c = '\n') || decide (c = '\t') || decide (c = '\r') || decide (c = '\x0c')

/-- Digits of `[0-9]+`, `lib/lexer.lxx:228`. -/
def isDig (c : Char) : Bool := decide ('0' ≤ c) && decide (c ≤ '9')

/-- Operators that are words, `lib/lexer.lxx:273-325`. -/
def keywordTok (s : List Char) : Tok :=
  if s = "div".toList then .op .idiv
  else if s = "mod".toList then .op .mod
  else if s = "in".toList then .op .isIn
  else if s = "subset".toList then .op .subset
  else if s = "superset".toList then .op .superset
  else if s = "union".toList then .op .union
  else if s = "diff".toList then .op .diff
  else if s = "symdiff".toList then .op .symdiff
  else if s = "intersect".toList then .op .intersect
  else if s = "xor".toList then .op .xor
  else if s = "not".toList then .not
  else .bad

/-- Number literals, `lib/lexer.lxx:206-252`: `ds` are the digits matched by `[0-9]+`.  If a longer rule
(hexadecimal, octal, floating point) could match, the result is `bad`. -/
def numberTok (ds rest : List Char) : Tok × List Char :=
  match rest with
  | '.' :: c :: _ => if isDig c then (.bad, rest) else (plain ds, rest)
  | 'e' :: _ => (.bad, rest)
  | 'E' :: _ => (.bad, rest)
  | 'x' :: _ => (.bad, rest)
  | 'X' :: _ => (.bad, rest)
  | 'o' :: _ => (.bad, rest)
  | _ => (plain ds, rest)
where
  /-- `lib/lexer.lxx:225-233` -/
  plain (ds : List Char) : Tok :=
    match Lex.numTok ds with
    | .ok (.int v) => .int v
    | .ok .maxNegative => .maxNeg
    | _ => .bad

/-- Symbols: longest match, `lib/lexer.lxx:188`, `:255-261`, `:326-362`. -/
def symTok : List Char → Option (Tok × List Char)
  | '+' :: '+' :: r => some (.op .plusplus, r)
  | '+' :: r => some (.op .plus, r)
  | '-' :: '>' :: r => some (.op .impl, r)
  | '-' :: r => some (.op .minus, r)
  | '*' :: r => some (.op .mult, r)
  | '/' :: '*' :: r => some (.bad, r)
  | '/' :: '\\' :: r => some (.op .and, r)
  | '/' :: r => some (.op .div, r)
  | '^' :: '-' :: '1' :: r => some (.powm1, r)
  | '^' :: r => some (.op .pow, r)
  | '<' :: '>' :: r => some (.bad, r)
  | '<' :: '=' :: r => some (.op .lq, r)
  | '<' :: '-' :: '>' :: r => some (.op .equiv, r)
  | '<' :: '-' :: r => some (.op .rimpl, r)
  | '<' :: '.' :: '.' :: r => some (.bad, r)
  | '<' :: r => some (.op .le, r)
  | '>' :: '=' :: r => some (.op .gq, r)
  | '>' :: r => some (.op .gr, r)
  | '=' :: '=' :: r => some (.op .eq, r)
  | '=' :: r => some (.op .eq, r)
  | '!' :: '=' :: r => some (.op .nq, r)
  | '.' :: '.' :: '<' :: r => some (.bad, r)
  | '.' :: '.' :: r => some (.op .dotdot, r)
  | '\\' :: '/' :: r => some (.op .or, r)
  | '(' :: r => some (.lpar, r)
  | ')' :: r => some (.rpar, r)
  | ',' :: r => some (.comma, r)
  | _ => none

/-- The next token; `none` at the end of the text.  `lib/lexer.lxx:163-463`, without comments, strings
and the Unicode spellings of operators. -/
def nextTok (inp : List Char) : Option (Tok × List Char) :=
  match inp.dropWhile isWs with
  | [] => none
  | c :: r =>
    match symTok (c :: r) with
    | some t => some t
    | none =>
      if isDig c then some (numberTok ((c :: r).takeWhile isDig) ((c :: r).dropWhile isDig))
      else
        match Lex.lexWord (c :: r) with
        | (.ident s, rest) => some (.ident s, rest)
        | (.keyword s, rest) => some (keywordTok s, rest)
        | (_, rest) => some (.bad, rest)

/-- All tokens of a text; the counter bounds their number. -/
def lexN : Nat → List Char → List Tok
  | 0, _ => []
  | n + 1, inp =>
    match nextTok inp with
    | none => []
    | some (t, r) => t :: lexN n r

/-- All tokens of a text. -/
def lex (inp : List Char) : List Tok := lexN inp.length inp

/-! ## Parser -/

/-- The declared precedence levels of the binary operators, lowest first,
`lib/parser.yxx:303-317`. -/
def Op.level : Op → Nat
  | .equiv => 1
  | .impl | .rimpl => 2
  | .or | .xor => 3
  | .and => 4
  | .le | .gr | .lq | .gq | .eq | .nq => 5
  | .isIn | .subset | .superset => 6
  | .union | .diff | .symdiff => 7
  | .intersect => 8
  | .dotdot => 9
  | .plus | .minus => 10
  | .mult | .div | .idiv | .mod => 11
  | .pow => 12
  | .plusplus => 14

/-- The operator was declared with `%nonassoc` (otherwise `%left`), `lib/parser.yxx:303-317`. -/
def Op.nonassoc : Op → Bool
  | .le | .gr | .lq | .gq | .eq | .nq | .isIn | .subset | .superset | .dotdot => true
  | _ => false

/-- The precedence of the rules for unary operators: `%prec MZN_NOT` and `%prec MZN_MULT`,
`lib/parser.yxx:1514-1523`. -/
def UOp.level : UOp → Nat
  | .not => 13
  | .plus | .minus => 11

/-- Semantic action of the binary rules, `lib/parser.yxx:1360-1467`: a range of two integer literals
becomes a set literal (`:1396-1404`). -/
def mkBin (o : Op) (l r : E) : E :=
  match o, l, r with
  | .dotdot, .int a, .int b => .range a b
  | _, _, _ => .bin o l r

/-- Semantic action of the unary rules, `lib/parser.yxx:1514-1533`: signs of integer literals are
computed; negating the smallest integer throws (`include/minizinc/values.hh`, `IntVal::operator-`). -/
def mkUn (u : UOp) (e : E) : Res E :=
  match u, e with
  | .minus, .int i => do
    let x ← IntVal.neg (IntVal.fin i)
    .ok (.int x.v)
  | .plus, .int i => .ok (.int i)
  | _, _ => .ok (.un u e)

/-- What is on the parser's stack below the current expression. -/
inductive Frame where
  /-- `expr OP` -/
  | lhs (e : E) (o : Op)
  /-- a unary operator -/
  | pre (u : UOp)
  /-- `'('` of `'(' expr ')'` -/
  | paren
  /-- `MZN_IDENTIFIER '(' expr ',' … ','` -/
  | args (f : List Char) (done : List E)

/-- Precedence of the rule that a frame and an expression complete. -/
def Frame.level : Frame → Option Nat
  | .lhs _ o => some o.level
  | .pre u => some u.level
  | _ => none

/-- The reduction by that rule. -/
def Frame.reduce : Frame → E → Res E
  | .lhs l o, r => .ok (mkBin o l r)
  | .pre u, e => mkUn u e
  | _, e => .ok e

/-- Reductions with a binary operator `o` as the next token: a rule of higher precedence is reduced; at
equal precedence a left-associative one is reduced and a non-associative one is a syntax error; then
`o` is shifted. -/
def reduceOn (o : Op) : List Frame → E → Res (List Frame × E)
  | [], e => .ok ([], e)
  | f :: s, e =>
    match f.level with
    | none => .ok (f :: s, e)
    | some p =>
      if o.level < p then do
        let e ← f.reduce e
        reduceOn o s e
      else if p = o.level then
        if o.nonassoc then .err
        else do
          let e ← f.reduce e
          reduceOn o s e
      else .ok (f :: s, e)

/-- Reductions with `)`, `,` or the end of the text as the next token. -/
def reduceAll : List Frame → E → Res (List Frame × E)
  | [], e => .ok ([], e)
  | f :: s, e =>
    match f.level with
    | none => .ok (f :: s, e)
    | some _ => do
      let e ← f.reduce e
      reduceAll s e

/-- What the parser has read last. -/
inductive Cur where
  /-- nothing: an expression must follow -/
  | need
  /-- an identifier -/
  | ident (s : List Char)
  /-- an `expr_atom_head` that can be followed by `^-1`; `call` for `call_expr` -/
  | atom (call : Bool) (e : E)
  /-- an `expr` -/
  | done (e : E)

/-- The current expression. -/
def Cur.expr? : Cur → Option E
  | .need => none
  | .ident s => some (.ref s)
  | .atom _ e => some e
  | .done e => some e

/-- The parser: the stack, what was read last, and the remaining tokens.
`lib/parser.yxx:1356-1533` (`expr`), `:1543-1554`, `:1563-1573`, `:1605-1608`, `:1724-1732`
(`expr_atom_head_nonstring`: after a call, `^-1` has no action and its value is that of the call),
`:2405-2432` (`call_expr`), `:2568-2597`.  Tokens that continue an expression in rules that are not
modelled are rejected. -/
def run (s : List Frame) (c : Cur) : List Tok → Res E
  | [] =>
    match c.expr? with
    | none => .err
    | some e => do
      let r ← reduceAll s e
      match r with
      | ([], e) => .ok e
      | _ => .err
  | t :: ts =>
    match c with
    | .need =>
      match t with
      | .int v => run s (.atom false (.int v)) ts
      | .maxNeg =>
        match s with
        | .pre .minus :: s => run s (.done (.int (-9223372036854775807 - 1))) ts
        | _ => .err
      | .ident n => run s (.ident n) ts
      | .lpar => run (.paren :: s) .need ts
      | .op .plus => run (.pre .plus :: s) .need ts
      | .op .minus => run (.pre .minus :: s) .need ts
      | .not => run (.pre .not :: s) .need ts
      | .rpar =>
        match s with
        | .args f l :: s => run s (.atom true (.call f (.ofList l))) ts
        | _ => .err
      | _ => .err
    | c =>
      match c.expr? with
      | none => .err
      | some e =>
        match t with
        | .op o => do
          let r ← reduceOn o s e
          run (.lhs r.2 o :: r.1) .need ts
        | .rpar => do
          let r ← reduceAll s e
          match r with
          | (.paren :: s, e) => run s (.atom false e) ts
          | (.args f l :: s, e) => run s (.atom true (.call f (.ofList (l ++ [e])))) ts
          | _ => .err
        | .comma => do
          let r ← reduceAll s e
          match r with
          | (.args f l :: s, e) => run (.args f (l ++ [e]) :: s) .need ts
          | _ => .err
        | .lpar =>
          match c with
          | .ident n => run (.args n [] :: s) .need ts
          | _ => .err
        | .powm1 =>
          match c with
          | .ident n => run s (.done (.bin .pow (.ref n) (.int (-1)))) ts
          | .atom true e => run s (.done e) ts
          | .atom false e => run s (.done (.bin .pow e (.int (-1)))) ts
          | _ => .err
        | _ => .err

/-- Parsing an expression. -/
def parse (ts : List Tok) : Res E := run [] .need ts

end Syn
end MZ
