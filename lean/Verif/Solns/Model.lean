import Verif.Linear.Lemmas
import Verif.Lex.StrLit

/-!
# Processing the output of a solver (`Solns2Out`)

Model of `lib/solns2out.cpp`: splitting the solver's text into lines, recognising markers, printing
solutions and status messages.  What the output model computes from the text of a solution is a parameter.
-/

namespace MZ
namespace Solns

abbrev Text := List Char

/-- `SolverInstance::Status`, `include/minizinc/solver_instance.hh:23-32`. -/
inductive Status where
  | opt | sat | unsat | unbnd | unsatorunbnd | unknown | error | none
  deriving DecidableEq, Repr

/-- The options, `include/minizinc/solns2out.hh:61-93`.  `--output-time` is not modelled (it is off); flushing
has no effect on what is printed. -/
structure Opts where
  comments : Bool := true
  ignoreLines : Nat := 0
  unique : Bool := true
  canonicalize : Bool := false
  json : Bool := false
  /-- a file for the non-canonical output is open -/
  noncanon : Bool := false
  /-- a file for the raw output is open -/
  raw : Bool := false
  separator : Text := "----------".toList
  comma : Text := []
  unsatMsg : Text := "=====UNSATISFIABLE=====".toList
  unbndMsg : Text := "=====UNBOUNDED=====".toList
  unsatorunbndMsg : Text := "=====UNSATorUNBOUNDED=====".toList
  unknownMsg : Text := "=====UNKNOWN=====".toList
  errorMsg : Text := "=====ERROR=====".toList
  completeMsg : Text := "==========".toList

/-- The parts of the program that are not modelled. -/
structure Eval where
  /-- `parseAssignments` and `evalOutputInternal` (`lib/solns2out.cpp:200-231`, `:466-471`): the output for the
  text of a solution; `none` if an exception is thrown -/
  render : Text → Option Text
  /-- `checkSolution` (`lib/solns2out.cpp:357-432`): the lines of the report of the solution checker -/
  check : Text → List Text
  /-- `parseStatistics` (`lib/solns2out.cpp:265-277`); `none` if an exception is thrown -/
  statistics : Text → Option Text
  /-- `resolveAssumptionCore` (`lib/solns2out.cpp:830-887`) -/
  core : Text → List Text
  /-- the problem is a satisfaction problem -/
  isSat : Bool

/-- What is written to the output, in pieces. -/
inductive Piece where
  /-- a solution, as evaluated by the output model -/
  | solution (t : Text)
  /-- the separator between solutions -/
  | comma
  /-- a status message -/
  | status (s : Status)
  /-- a comment or other message of the solver -/
  | message (t : Text)
  /-- the report of a solution checker -/
  | checker (l : List Text)
  deriving DecidableEq

/-- The state of `Solns2Out`. -/
structure St where
  /-- `_linePart` -/
  linePart : Text := []
  /-- `nLinesIgnore` -/
  ignore : Nat := 0
  /-- `solution` -/
  solution : Text := []
  /-- `_stats` -/
  stats : Text := []
  /-- `_sSolsCanon`, in order -/
  sols : List Text := []
  out : List Piece := []
  noncanon : List Piece := []
  raw : Text := []
  /-- `stats.nSolns` -/
  nSolns : Nat := 0
  status : Status := .unknown
  statusPrinted : Bool := false
  /-- an exception was thrown; nothing is fed afterwards (`include/minizinc/process.hh:523-537`) -/
  failed : Bool := false
  deriving DecidableEq

/-- Order of strings, `operator<` of `std::string`: lexicographic by characters. -/
def textLt : Text → Text → Bool
  | _, [] => false
  | [], _ :: _ => true
  | a :: s, b :: t => decide (a < b) || (decide (a = b) && textLt s t)

/-- `std::set<std::string>::insert`; the second component tells if the string is new. -/
def insertSol (t : Text) : List Text → List Text × Bool
  | [] => ([t], true)
  | u :: l =>
    if textLt t u then (t :: u :: l, true)
    else if t = u then (u :: l, false)
    else
      let r := insertSol t l
      (u :: r.1, r.2)

/-- `createInputMap`, `lib/solns2out.cpp:889-897`, with the default messages of
`include/minizinc/solns2out.hh:75-81`. -/
def marker (line : Text) : Option Status :=
  if line = "==========".toList then some .opt
  else if line = "----------".toList then some .sat
  else if line = "=====UNSATISFIABLE=====".toList then some .unsat
  else if line = "=====UNBOUNDED=====".toList then some .unbnd
  else if line = "=====UNSATorUNBOUNDED=====".toList then some .unsatorunbnd
  else if line = "=====UNKNOWN=====".toList then some .unknown
  else if line = "=====ERROR=====".toList then some .error
  else none

/-- The text of a status message, `lib/solns2out.cpp:500-557`. -/
def statusText (o : Opts) (e : Eval) (s : Status) : Text :=
  let label : Text :=
    match s with
    | .sat => []
    | .none => []
    | .opt => if o.json && o.completeMsg ≠ [] then (if e.isSat then "ALL_SOLUTIONS" else "OPTIMAL_SOLUTION").toList
        else o.completeMsg
    | .unsat => if o.json then "UNSATISFIABLE".toList else o.unsatMsg
    | .unbnd => if o.json then "UNBOUNDED".toList else o.unbndMsg
    | .unsatorunbnd => if o.json then "UNSAT_OR_UNBOUNDED".toList else o.unsatorunbndMsg
    | .unknown => if o.json then "UNKNOWN".toList else o.unknownMsg
    | .error => if o.json then "ERROR".toList else o.errorMsg
  if label = [] then []
  else if o.json then "{\"type\": \"status\", \"status\": \"".toList ++ label ++ "\"}\n".toList
  else label ++ ['\n']

/-- `printSolution`, `lib/solns2out.cpp:238-263`. -/
def solutionText (o : Opts) (t : Text) : Text :=
  if o.json then "{\"type\": \"solution\", ".toList ++ t.filter (· ≠ '\n') ++ "}\n".toList
  else t ++ (if o.separator = [] then [] else o.separator ++ ['\n'])

/-- The report of the solution checker, `lib/solns2out.cpp:302-328`. -/
def checkerText (o : Opts) (l : List Text) : Text :=
  match l with
  | [] => []
  | first :: rest =>
    if o.json then
      let last := (first :: rest).getLast (by simp)
      "{\"type\": \"checker\", \"messages\": [".toList ++ first ++ (rest.map (", ".toList ++ ·)).flatten ++ "]".toList ++
        (if "{\"type\": \"solution\"".toList <+: last ∧ 19 < last.length then last.drop 19 ++ ['\n'] else "}\n".toList)
    else "% Solution checker report:\n".toList ++ ((first :: rest).map (fun l => "% ".toList ++ l ++ ['\n'])).flatten

/-- The characters written. -/
def Piece.text (o : Opts) (e : Eval) : Piece → Text
  | .solution t => solutionText o t
  | .comma => o.comma ++ ['\n']
  | .status s => statusText o e s
  | .message t => t
  | .checker l => checkerText o l

/-- The output as characters. -/
def outText (o : Opts) (e : Eval) (l : List Piece) : Text := (l.map (Piece.text o e)).flatten

/-- A comma is printed before every solution but the first, `lib/solns2out.cpp:344-346`, `:484-486`. -/
def commaIf (o : Opts) (b : Bool) : List Piece := if o.comma ≠ [] && b then [.comma] else []

/-- The checker report, if there is one, `lib/solns2out.cpp:306`. -/
def reportPieces (rep : List Text) : List Piece := if rep = [] then [] else [.checker rep]

/-- What is also written to the non-canonical output, `lib/solns2out.cpp:332-334`, `:724-729`. -/
def noncanonPieces (o : Opts) (p : Piece) : List Piece := if o.noncanon then [p] else []

/-- `evalOutput` after `parseAssignments`, `lib/solns2out.cpp:279-354`, for the text of a solution.  The
checker report goes to the output even if the solution itself is held back. -/
def evalOutput (o : Opts) (e : Eval) (s : St) : St :=
  match e.render s.solution with
  | none => { s with failed := true }
  | some t =>
    let rep := e.check s.solution
    let s := { s with solution := [], status := .sat }
    let ins := if o.unique || o.canonicalize then insertSol t s.sols else (s.sols, true)
    let s := { s with sols := ins.1 }
    if ins.2 then
      let s := { s with out := s.out ++ reportPieces rep, nSolns := s.nSolns + 1 }
      if o.canonicalize then
        { s with noncanon := s.noncanon ++ noncanonPieces o (.solution t) }
      else
        { s with out := s.out ++ commaIf o (decide (1 < s.nSolns)) ++ [Piece.solution t] }
    else s

/-- `evalOutputFinalInternal`, `lib/solns2out.cpp:482-493`. -/
def finalPieces (o : Opts) : Bool → List Text → List Piece
  | _, [] => []
  | first, t :: l => commaIf o (!first) ++ [.solution t] ++ finalPieces o false l

/-- `evalStatus`, `lib/solns2out.cpp:473-480`, and `evalStatusMsg`, `:495-562`. -/
def evalStatus (o : Opts) (st : Status) (s : St) : St :=
  let s := if o.canonicalize then { s with out := s.out ++ finalPieces o true s.sols } else s
  { s with out := s.out ++ [.status st], status := st, statusPrinted := true }

/-- `flushStatistics`, `lib/solns2out.cpp:899-905`. -/
def flushStatistics (e : Eval) (s : St) : St :=
  if s.stats = [] then s
  else
    match e.statistics s.stats with
    | none => { s with failed := true }
    | some t => { s with out := s.out ++ [.message t], stats := [] }

/-- White space skipped by `std::skipws`. -/
def isSpace (c : Char) : Bool := decide (c = ' ') || decide ('\t' ≤ c ∧ c ≤ '\r')

/-- The message printed for a comment line, `lib/solns2out.cpp:688-729`; the second component are the statistics
that remain to be printed. -/
def commentMsg (o : Opts) (e : Eval) (stats line : Text) : Option (Text × Text) :=
  if "%%%mzn-core: ".toList <+: line then
    let r := e.core (line.drop 13)
    some ((if o.json then
        "{\"type\": \"core\", \"core\": [".toList ++
          (", ".toList).intercalate (r.map (fun t => ['"'] ++ Lex.escape t ++ ['"'])) ++ "]}\n".toList
      else "%%%mzn-core: [".toList ++ (", ".toList).intercalate r ++ "]\n".toList), stats)
  else if o.json then
    if "%%%mzn-stat: ".toList <+: line then some ([], stats ++ line.drop 13 ++ [';'])
    else if line = "%%%mzn-stat-end".toList then (e.statistics stats).map (fun t => (t, []))
    else some ("{\"type\": \"comment\", \"comment\": \"".toList ++ Lex.escape line ++ "\\n\"}\n".toList, stats)
  else some (line ++ ['\n'], stats)

/-- A line that is not a marker, `lib/solns2out.cpp:680-746`.  The counters of nodes and failures are not
modelled. -/
def otherLine (o : Opts) (e : Eval) (s : St) (line : Text) : St :=
  let s := { s with solution := s.solution ++ line ++ ['\n'] }
  if o.comments && decide ((line.dropWhile isSpace).head? = some '%') then
    match commentMsg o e s.stats line with
    | none => { s with failed := true }
    | some (m, stats) =>
      { s with out := s.out ++ [.message m], noncanon := s.noncanon ++ noncanonPieces o (.message m), stats := stats }
  else s

/-- One `'\r'` at the end of a line is dropped, `lib/solns2out.cpp:655-659`. -/
def stripCR (line : Text) : Text := if line.getLast? = some '\r' then line.dropLast else line

/-- A complete line, `lib/solns2out.cpp:655-747`. -/
def processLine (o : Opts) (e : Eval) (s : St) (line : Text) : St :=
  if s.failed then s
  else
    let line := stripCR line
    if 0 < s.ignore then { s with ignore := s.ignore - 1 }
    else
      match marker line with
      | some st =>
        let s := flushStatistics e s
        if s.failed then s
        else if st = .sat then evalOutput o e s
        else evalStatus o st s
      | none => otherLine o e s line

/-- The results of calling `getline` on a `istringstream` until it is at its end; only the last one is not
terminated by a newline. -/
def getlines : Text → List Text
  | [] => [[]]
  | c :: cs =>
    if c = '\n' then [] :: getlines cs
    else
      match getlines cs with
      | [] => [[c]]
      | l :: ls => (c :: l) :: ls

/-- The loop of `feedRawDataChunk`, `lib/solns2out.cpp:642-748`. -/
def feedLines (o : Opts) (e : Eval) (s : St) : List Text → St
  | [] => s
  | [l] => if s.failed then s else { s with linePart := s.linePart ++ l }
  | l :: ls =>
    if s.failed then s
    else feedLines o e (processLine o e { s with linePart := [] } (s.linePart ++ l)) ls

/-- `feedRawDataChunk`, `lib/solns2out.cpp:642-755`.  The chunk is a C string: it ends at its first NUL. -/
def feed (o : Opts) (e : Eval) (s : St) (data : Text) : St :=
  let d := data.takeWhile (· ≠ '\x00')
  let s := feedLines o e s (getlines d)
  if s.failed then s
  else { s with raw := s.raw ++ (if o.raw then d else []) }

/-- Feeding several chunks; nothing is fed after an exception. -/
def feedAll (o : Opts) (e : Eval) (s : St) (chunks : List Text) : St :=
  chunks.foldl (fun s d => if s.failed then s else feed o e s d) s

/-- The state after `init`, `lib/solns2out.cpp:564-624`. -/
def init (o : Opts) : St := { ignore := o.ignoreLines }

end Solns
end MZ
