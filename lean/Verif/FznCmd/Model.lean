import Verif.Options.Model
import Verif.CmdLine.Model
/-!
# Model: running an external FlatZinc solver (solvers/fzn/fzn_solverinstance.cpp)

The options given to the generic FlatZinc driver (`FZNSolverFactory::processOption`), the flags a solver
configuration says its solver understands (`setAcceptedFlags`), and the command line with which the solver is
started (`FZNSolverInstance::solve`). Strings are lists of characters. Extraction of an `int` from a string stream
is the parameter `rd`; `ostringstream` and `to_string` of an `int` are the parameter `sh`.
-/
namespace MZ
namespace FznCmd
open Options

abbrev Word := List Char

/-- A character list literal, written as a string. -/
macro "cs!" s:str : term => do
  let cs ← s.getString.toList.toArray.mapM fun c => pure (Lean.Syntax.mkCharLit c)
  `([$cs,*])

/-- include/minizinc/solvers/fzn_solverinstance.hh 19–62 `FZNSolverOptions`. The twelve Booleans `supportsX` are
the list `sup` of the flags for which they are set; a parallelism that is the empty string is `none`; the format and
the markers of interactive solvers are left out. `extra` is `fznSolverFlags`, with whether the flag has an argument. -/
structure Opts where
  solver : Word := []
  backend : Word := []
  flags : List Word := []
  numSols : Int := 1
  parallel : Option Int := none
  limit : Int := 0
  cleanup : Int := 1000
  sigint : Bool := false
  numOptimal : Bool := true
  allOptimal : Bool := false
  paths : Bool := false
  passthrough : Bool := false
  interactive : Bool := false
  stats : Bool := false
  verbose : Bool := false
  sup : List Word := []
  extra : List (Word × Bool) := []
deriving DecidableEq, Repr

/-- fzn_solverinstance.cpp 204–228: the flags with a Boolean of their own. -/
def stdFlags : List Word :=
  [cs!"-a", cs!"-n", cs!"-f", cs!"-p", cs!"-s", cs!"-r", cs!"-v", cs!"-t", cs!"-i", cs!"-n-o", cs!"-a-o",
   cs!"--cp-profiler"]

/-- fzn_solverinstance.cpp 194–232 `setAcceptedFlags`, without the format. -/
def setAccepted (o : Opts) (fs : List (Word × Bool)) : Opts :=
  fs.foldl (fun o f => if f.1 ∈ stdFlags then { o with sup := o.sup ++ [f.1] }
    else { o with extra := o.extra ++ [f] }) { o with extra := [] }

/-- A condition `cop.getOption(names, &value)` of the chain: `k` is what is done with the value and the new current
item, `e` the rest of the chain. -/
def val {V R : Type} (names : List Word) (rd : Word → Option V) (argv : List Word) (i : Nat)
    (k : V → Nat → R) (e : R) : R :=
  match getOption names (some rd) false argv i with
  | ⟨true, j, some v⟩ => k v j
  | _ => e

/-- A condition `cop.getOption(names)` of the chain. -/
def flag {R : Type} (names : List Word) (argv : List Word) (i : Nat) (k : R) (e : R) : R :=
  if (getOption (V := Unit) names none false argv i).found then k else e

/-- fzn_solverinstance.cpp 176–186: the flags of the solver's configuration. Their names are taken to be single words
(`getOption` splits them at blanks). -/
def extras (o : Opts) (argv : List Word) (i : Nat) : List (Word × Bool) → Option (Opts × Nat)
  | [] => none
  | (n, true) :: fs =>
    val [n] some argv i (fun v j => some ({ o with flags := o.flags ++ [n, v] }, j)) (extras o argv i fs)
  | (n, false) :: fs =>
    flag [n] argv i (some ({ o with flags := o.flags ++ [n] }, i)) (extras o argv i fs)

/-- fzn_solverinstance.cpp 107–191 `processOption`: `none` if the option is not recognised, and otherwise the options
and the current item. -/
def processOption (rd : Word → Option Int) (o : Opts) (argv : List Word) (i : Nat) : Option (Opts × Nat) :=
  val [cs!"--fzn-cmd", cs!"--flatzinc-cmd"] some argv i (fun v j => some ({ o with solver := v }, j)) <|
  val [cs!"-b", cs!"--backend", cs!"--solver-backend"] some argv i
    (fun v j => some ({ o with backend := v }, j)) <|
  val [cs!"--fzn-flags", cs!"--flatzinc-flags", cs!"--backend-flags"] some argv i
    (fun v j => some ({ o with flags := o.flags ++ CmdLine.parse v }, j)) <|
  val [cs!"-t", cs!"--solver-time-limit"] rd argv i (fun n j => some ({ o with limit := n }, j)) <|
  val [cs!"--cleanup-time-limit"] rd argv i (fun n j => some ({ o with cleanup := n }, j)) <|
  flag [cs!"--fzn-sigint"] argv i (some ({ o with sigint := true }, i)) <|
  flag [cs!"--fzn-needs-paths"] argv i (some ({ o with paths := true }, i)) <|
  flag [cs!"--fzn-output-passthrough"] argv i (some ({ o with passthrough := true }, i)) <|
  flag [cs!"--fzn-interactive"] argv i (some ({ o with interactive := true }, i)) <|
  val [cs!"--fzn-flag", cs!"--flatzinc-flag", cs!"--backend-flag"] some argv i
    (fun v j => some ({ o with flags := o.flags ++ [v] }, j)) <|
  (fun e => if cs!"-n" ∈ o.sup then
    val [cs!"-n", cs!"--num-solutions"] rd argv i (fun n j => some ({ o with numSols := n }, j)) e else e) <|
  flag [cs!"-a"] argv i (some ({ o with flags := o.flags ++ [cs!"-a"] }, i)) <|
  flag [cs!"-i"] argv i (some ({ o with flags := o.flags ++ [cs!"-i"] }, i)) <|
  (fun e => if cs!"-n-o" ∈ o.sup then
    val [cs!"-n-o", cs!"--num-optimal"] rd argv i
      (fun n j => some ({ o with numOptimal := decide (n ≠ 0) }, j)) e else e) <|
  (fun e => if cs!"-a-o" ∈ o.sup then
    flag [cs!"-a-o", cs!"--all-opt", cs!"--all-optimal"] argv i (some ({ o with allOptimal := true }, i)) e
    else e) <|
  val [cs!"-p", cs!"--parallel"] rd argv i
    (fun n j => some (if cs!"-p" ∈ o.sup then { o with parallel := some n } else o, j)) <|
  flag [cs!"-k", cs!"--keep-files"] argv i (some (o, i)) <|
  val [cs!"-r", cs!"--seed", cs!"--random-seed"] some argv i
    (fun v j => some (if cs!"-r" ∈ o.sup then { o with flags := o.flags ++ [cs!"-r", v] } else o, j)) <|
  flag [cs!"-s", cs!"--solver-statistics"] argv i
    (some (if cs!"-s" ∈ o.sup then { o with stats := true } else o, i)) <|
  flag [cs!"-v", cs!"--verbose-solving"] argv i (some ({ o with verbose := true }, i)) <|
  flag [cs!"-f", cs!"--free-search"] argv i
    (some (if cs!"-f" ∈ o.sup then { o with flags := o.flags ++ [cs!"-f"] } else o, i)) <|
  (fun e => if cs!"--cp-profiler" ∈ o.sup then
    val [cs!"--cp-profiler"] some argv i
      (fun v j => some ({ o with flags := o.flags ++ [cs!"--cp-profiler", v] }, j)) e else e) <|
  extras o argv i o.extra

/-- lib/solver.cpp 891–944, the loop over the arguments, for arguments that the driver's own options, the output and
the flattener leave to the solver: `none` is the error for an unrecognised option. -/
def processAll (rd : Word → Option Int) (argv : List Word) : Nat → Nat → Opts → Option Opts
  | 0, i, o => if i < argv.length then none else some o
  | fuel + 1, i, o =>
    if i < argv.length then
      match processOption rd o argv i with
      | none => none
      | some (o', j) => processAll rd argv fuel (j + 1) o'
    else some o

/-- fzn_solverinstance.cpp 243–360 `solve`: the command line and the time after which the solver is stopped (0 for
never). `fzn` and `pth` are the names of the temporary files. `none`: no solver was given. -/
def solve (sh : Int → Word) (o : Opts) (isSat : Bool) (fzn pth : Word) : Option (List Word × Int) :=
  if o.solver = [] then none
  else
    some ([o.solver] ++ o.flags
      ++ (if o.backend ≠ [] then [cs!"-b", o.backend] else [])
      ++ (if o.allOptimal ∧ ¬ isSat then [cs!"-a-o"] else [])
      ++ (if o.numOptimal.toInt ≠ 1 ∧ ¬ isSat then [cs!"-n-o", sh o.numOptimal.toInt] else [])
      ++ (if o.numSols ≠ 1 ∧ isSat then [cs!"-n", sh o.numSols] else [])
      ++ (match o.parallel with | some p => [cs!"-p", sh p] | none => [])
      ++ (if o.stats then [cs!"-s"] else [])
      ++ (if o.limit ≠ 0 ∧ cs!"-t" ∈ o.sup then [cs!"-t", sh o.limit] else [])
      ++ (if o.verbose ∧ cs!"-v" ∈ o.sup then [cs!"-v"] else [])
      ++ [fzn]
      ++ (if o.paths then [cs!"--paths", pth] else []),
    if o.limit ≠ 0 then (if cs!"-t" ∈ o.sup then o.limit + o.cleanup else o.limit) else 0)

/-- The whole of it: a solver's flags are declared, the arguments are read and the solver is started. -/
def start (rd : Word → Option Int) (sh : Int → Word) (accepted : List (Word × Bool)) (argv : List Word)
    (isSat : Bool) (fzn pth : Word) : Option (List Word × Int) :=
  match processAll rd argv argv.length 0 (setAccepted {} accepted) with
  | none => none
  | some o => solve sh o isSat fzn pth

end FznCmd
end MZ
