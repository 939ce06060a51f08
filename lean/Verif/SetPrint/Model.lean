import Verif.Ranges.Model
/-!
# Model: printing integer sets (include/minizinc/values.hh 291–301, 765–803)
-/
namespace MZ
namespace SetPrint

/-- values.hh 291–301 `operator<<` for `IntVal`; decimal output of a `long long` is `toString`. -/
def showExt : Ext → String
  | .negInf => "-infinity"
  | .posInf => "infinity"
  | .fin v => toString v

/-- `os << min << ".." << max` (values.hh 773, 776, 795, 799). -/
def showRange (r : Range) : String := showExt r.lo ++ ".." ++ showExt r.hi

/-- values.hh 783–790: the inner loop `for (IntVal i = min; i <= max; i++)`, collecting the printed
numbers. `i++` raises an arithmetic error at the largest 64-bit integer. -/
def elems (i mx : Int) : Res (List Int) :=
  if i ≤ mx then
    if i = LMAX then .err
    else Res.bind (elems (i + 1) mx) (fun l => .ok (i :: l))
  else .ok []
termination_by (mx + 1 - i).toNat

/-- values.hh 781–792: the elements of the ranges both of whose ends are finite. -/
def allElems : List Range → Res (List Int)
  | [] => .ok []
  | r :: s =>
    match r.lo, r.hi with
    | .fin a, .fin b => Res.bind (elems a b) (fun l => Res.bind (allElems s) (fun m => .ok (l ++ m)))
    | _, _ => allElems s

/-- values.hh 778–793: the text `{e1,e2,…}` built in the string stream. -/
def braces (l : List Int) : String := "{" ++ String.intercalate "," (l.map toString) ++ "}"

/-- whether a bound is finite -/
def isFin : Ext → Bool
  | .fin _ => true
  | _ => false

/-- values.hh 775–777: a first range that is unbounded below. -/
def showFirst (r : Range) : String := if isFin r.lo then "" else showRange r ++ " union "

/-- values.hh 794–801: the element list, and the last range `q` if it is unbounded above.
When no element was printed (`first` still true) only the last range is written. -/
def showRest (l : List Int) (q : Range) : String :=
  if l.isEmpty then showRange q
  else if isFin q.hi then braces l
  else braces l ++ (" union " ++ showRange q)

/-- values.hh 765–803 `operator<<` for `IntSetVal`. -/
def print (s : List Range) : Res String :=
  match s with
  | [] => .ok "1..0"
  | [r] => .ok (showRange r)
  | r :: r2 :: t =>
    Res.bind (allElems s) (fun l =>
      .ok (showFirst r ++ showRest l ((r2 :: t).getLast (by simp))))

end SetPrint
end MZ
