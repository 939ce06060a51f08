import Verif.Json.Parse
import Verif.Json.TokenProps

/-!
# JSON documents: grammar and meaning (specification for C53)

The grammar follows RFC 8259: a document is a sequence of tokens, each of which may be preceded by
white space, and the tokens of a value are its brackets, commas and colons in the usual places.
-/

namespace MZ
namespace Json

/-- An element of a set: a number or a range of numbers. -/
inductive SetItem where
  | one (i : Int)
  | range (a b : Int)

mutual
/-- JSON values; `{"set": [...]}`, the notation for sets of integers, is a value of its own. -/
inductive JVal where
  | null
  | bool (b : Bool)
  | int (i : Int)
  | float (text : List Char)
  | str (s : List Char)
  | list (l : JVals)
  | obj (f : JFields)
  | set (l : List SetItem)

/-- The values of a list. -/
inductive JVals where
  | nil
  | cons (v : JVal) (r : JVals)

/-- The members of an object. -/
inductive JFields where
  | nil
  | cons (k : List Char) (v : JVal) (r : JFields)
end

/-- The tokens of a set's elements, up to the closing brackets. -/
def toksS : List SetItem → List JTok
  | [] => [.listClose, .objClose]
  | .one i :: r => .int i :: (if r.isEmpty then [] else [.comma]) ++ toksS r
  | .range a b :: r => [.listOpen, .int a, .comma, .int b, .listClose] ++
      (if r.isEmpty then [] else [.comma]) ++ toksS r

/-- A comma, unless nothing follows. -/
def JVals.sep : JVals → List JTok
  | .nil => []
  | .cons _ _ => [.comma]

/-- A comma, unless nothing follows. -/
def JFields.sep : JFields → List JTok
  | .nil => []
  | .cons _ _ _ => [.comma]

mutual
/-- The tokens of a value. -/
def toks : JVal → List JTok
  | .null => [.null]
  | .bool b => [.bool b]
  | .int i => [.int i]
  | .float t => [.float t]
  | .str s => [.str s]
  | .list l => .listOpen :: toksL l
  | .obj f => .objOpen :: toksF f
  | .set l => [.objOpen, .str "set".toList, .colon, .listOpen] ++ toksS l

/-- The tokens of a list after the opening bracket. -/
def toksL : JVals → List JTok
  | .nil => [.listClose]
  | .cons v r => toks v ++ (r.sep ++ toksL r)

/-- The tokens of an object after the opening brace. -/
def toksF : JFields → List JTok
  | .nil => [.objClose]
  | .cons k v r => .str k :: .colon :: (toks v ++ (r.sep ++ toksF r))
end

/-- Exponent of a number; a plus sign is not supported. -/
def ExpText (t : List Char) : Prop :=
  ∃ e ds, (e = 'e' ∨ e = 'E') ∧ Digits ds ∧ (t = e :: ds ∨ t = e :: '-' :: ds)

/-- Numbers with a fraction or an exponent. -/
def FloatText (t : List Char) : Prop :=
  ∃ neg ds, Digits ds ∧
    ((∃ fs, Digits fs ∧ (t = intText neg ds ++ '.' :: fs ∨
        ∃ x, ExpText x ∧ t = intText neg ds ++ '.' :: fs ++ x)) ∨
      ∃ x, ExpText x ∧ t = intText neg ds ++ x)

/-- The source text of a single token; integers have 32 bits (see C22), strings consist of elements
the reader supports (see C21). -/
inductive SpellTok : JTok → List Char → Prop
  | listOpen : SpellTok .listOpen ['[']
  | listClose : SpellTok .listClose [']']
  | objOpen : SpellTok .objOpen ['{']
  | objClose : SpellTok .objClose ['}']
  | comma : SpellTok .comma [',']
  | colon : SpellTok .colon [':']
  | null : SpellTok .null "null".toList
  | tru : SpellTok (.bool true) "true".toList
  | fls : SpellTok (.bool false) "false".toList
  | int (neg : Bool) (ds : List Char) (hd : Digits ds)
      (h : -2 ^ 31 ≤ intValue neg ds ∧ intValue neg ds < 2 ^ 31) :
      SpellTok (.int (intValue neg ds)) (intText neg ds)
  | float (t : List Char) (h : FloatText t) : SpellTok (.float t) t
  | str (es : List (List Char × List Char)) (h : ∀ e ∈ es, Elem e.1 e.2 ∧ Supported e.1 e.2) :
      SpellTok (.str (es.map Prod.snd).flatten) ('"' :: (es.map Prod.fst).flatten ++ ['"'])

/-- The token is a number. -/
def isNumTok : JTok → Bool
  | .int _ => true
  | .float _ => true
  | _ => false

/-- `Spells ts text rest`: `text` is a spelling of the tokens `ts` followed by `rest`, with any white
space before each token. -/
inductive Spells : List JTok → List Char → List Char → Prop
  | nil (rest : List Char) : Spells [] rest rest
  | cons (ws : List Char) (hws : ∀ c ∈ ws, c = ' ' ∨ c = '\t' ∨ c = '\n' ∨ c = '\r')
      (t : JTok) (text : List Char) (ht : SpellTok t text) (ts : List JTok) (r rest : List Char)
      (hn : isNumTok t = true → EndsNumber r) (hs : Spells ts r rest) :
      Spells (t :: ts) (ws ++ text ++ r) rest

/-! ## What a value means for a declared type -/

/-- A text is an identifier when an enumeration (or an unknown type) is declared. -/
def strAs (ti : Option TI) (s : List Char) : JE :=
  match ti with
  | none => .str s
  | some t => if t.enum = true ∨ t.base = .unknown then .id s else .str s

/-- Depth of the lists inside a list of depth `k`; it is not counted without a declared type. -/
def deeper (ti : Option TI) (k : Nat) : Nat :=
  match ti with
  | none => 0
  | some _ => k + 1

/-- A nested list: a set where the declared type has sets as elements and all index sets are used
up, an array otherwise. -/
def innerAs (ti : Option TI) (k : Nat) (l : List JE) : JE :=
  match ti with
  | none => .arr l
  | some t => if t.isSet = true ∧ t.ranges.length ≤ k then .exprSet l else .arr l

/-- The ranges of a set. -/
def SetItem.bounds : SetItem → Num × Num
  | .one i => (.int i, .int i)
  | .range a b => (.int a, .int b)

/-- The set literal of a set; see `C53_set` for its elements. -/
def setAs (l : List SetItem) : JE :=
  buildSet (if l.isEmpty then .none else .int) [] (l.map SetItem.bounds)

mutual
/-- The expression a value stands for as an element of a list of depth `k`. -/
def den (ti : Option TI) (k : Nat) : JVal → JE
  | .null => .absent
  | .bool b => .bool b
  | .int i => .int i
  | .float t => .float t
  | .str s => strAs ti s
  | .list l => innerAs ti (deeper ti k) (denL ti (deeper ti k) l)
  | .obj f => .record (denF f)
  | .set l => setAs l

def denL (ti : Option TI) (k : Nat) : JVals → List JE
  | .nil => []
  | .cons v r => den ti k v :: denL ti k r

def denF : JFields → List (List Char × JE)
  | .nil => []
  | .cons k v r => (k, den none 0 v) :: denF r
end

/-- The first value of a list is a list or an object. -/
def JVals.nested : JVals → Bool
  | .cons (.list _) _ => true
  | .cons (.obj _) _ => true
  | _ => false

/-- All values are strings. -/
def JVals.strings : JVals → Bool
  | .nil => true
  | .cons (.str _) r => r.strings
  | .cons _ _ => false

/-- The value is a list. -/
def JVal.isList : JVal → Bool
  | .list _ => true
  | _ => false

/-- The declared index sets; where none is given, `1..infinity`. -/
def indexSets (t : TI) : List JE :=
  t.ranges.map (fun d => match d with
    | some d => d
    | none => .intSet [⟨.fin 1, .posInf⟩])

/-- `TopMeans ti v e`: the value `v` of a parameter with declared type `ti` is the expression `e`. -/
inductive TopMeans : Option TI → JVal → JE → Prop
  /-- everything but lists is as within a list -/
  | single (ti v) (h : v.isList = false) : TopMeans ti v (den ti 0 v)
  /-- not declared -/
  | untyped (l) : TopMeans none (.list l) (.arr (denL none 0 l))
  /-- definition of an enumeration -/
  | enum (t l) (he : t.enum = true) (hl : l.strings = true) :
      TopMeans (some t) (.list l) (.call "enumFromConstructors".toList [.arr [.exprSet (denL (some t) 0 l)]])
  /-- set parameter -/
  | set (t l) (he : t.enum = false) (hs : t.isSet = true) (hr : t.ranges = []) :
      TopMeans (some t) (.list l) (.exprSet (denL (some t) 0 l))
  /-- no array declared -/
  | list (t l) (he : t.enum = false) (hs : t.isSet = false) (hr : t.ranges = []) :
      TopMeans (some t) (.list l) (.arr (denL (some t) 0 l))
  /-- empty array -/
  | empty (t) (he : t.enum = false) (hr : t.ranges ≠ []) : TopMeans (some t) (.list .nil) (.arr [])
  /-- array given by the list of its elements -/
  | flat (t l) (he : t.enum = false) (hr : t.ranges ≠ []) (hl : l ≠ .nil)
      (h1 : t.ranges.length = 1 ∨ l.nested = false) :
      TopMeans (some t) (.list l)
        (.call ("array".toList ++ Nat.toDigits 10 t.ranges.length ++ ['d'])
          (indexSets t ++ [.arr (denL (some t) 0 l)]))
  /-- array given by nested lists: `f` are its elements in row-major order -/
  | nested (t l shape f) (he : t.enum = false) (hr : 2 ≤ t.ranges.length) (hl : l.nested = true)
      (hs : shape.length = t.ranges.length) (hf : Rect shape (denL (some t) 0 l) f) (hz : 0 ∉ shape.dropLast) :
      TopMeans (some t) (.list l) (.call "array_index_shift".toList (indexSets t ++ [.arrN shape f]))

/-- A key that does not turn an object into a set or an enumeration value. -/
def PlainKey (ti : Option TI) (k : List Char) : Prop :=
  k ≠ "set".toList ∧
    (∀ t, ti = some t → (t.enum = true ∨ t.base = .int ∨ t.base = .unknown) → k ≠ ['e'] ∧ k ≠ ['i'] ∧ k ≠ ['c'])

mutual
/-- The values covered by the theorem: objects are not empty and have plain keys. -/
def Plain (ti : Option TI) : JVal → Prop
  | .list l => PlainL ti l
  | .obj f => f ≠ .nil ∧ PlainF ti f
  | _ => True

def PlainL (ti : Option TI) : JVals → Prop
  | .nil => True
  | .cons v r => Plain ti v ∧ PlainL ti r

def PlainF (ti : Option TI) : JFields → Prop
  | .nil => True
  | .cons k v r => PlainKey ti k ∧ Plain none v ∧ PlainF ti r
end

/-- The members of a document, as a list. -/
def JFields.toList : JFields → List (List Char × JVal)
  | .nil => []
  | .cons k v r => (k, v) :: r.toList

/-- `Means known doc asg`: the members of the document mean the assignments `asg`, in order; members
that are not declared or start with an underscore are skipped. -/
inductive Means (known : List Char → Option TI) : List (List Char × JVal) → List (List Char × JE) → Prop
  | nil : Means known [] []
  | use (k v e d a) (hk : k.head? ≠ some '_') (hd : (known k).isSome = true) (he : TopMeans (known k) v e)
      (h : Means known d a) : Means known ((k, v) :: d) ((k, e) :: a)
  | skip (k v e d a) (hk : k.head? = some '_' ∨ known k = none) (he : TopMeans (known k) v e)
      (h : Means known d a) : Means known ((k, v) :: d) a

end Json
end MZ
