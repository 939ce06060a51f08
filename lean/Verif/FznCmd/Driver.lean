import Verif.FznCmd.Model
/-!
# Model: the driver's options for the number of solutions (lib/solver.cpp 925–944 and 1137–1161)

`-a`, `-i` and their variants are recorded by the driver and handed to the solver once it is known whether the
problem is a satisfaction or an optimisation problem. The driver's other options, the output and the flattener are
left out, as are the warning for solvers without `-a` and the options for time limit and random seed that the driver
passes on (1115–1135).
-/
namespace MZ
namespace FznCmd

/-- include/minizinc/solver.hh 153–156. -/
structure Driver where
  supportsA : Bool
  supportsI : Bool
  allSat : Bool := false
  inter : Bool := false

/-- lib/solver.cpp 925–936. -/
def driverOption (d : Driver) (argv : List Word) (i : Nat) : Option Driver :=
  (fun e => if d.supportsA || d.supportsI then
    flag [cs!"-a", cs!"--all", cs!"--all-solns", cs!"--all-solutions"] argv i
      (some { d with allSat := true, inter := true }) e else e) <|
  (fun e => if d.supportsA || d.supportsI then
    flag [cs!"-i", cs!"--intermediate", cs!"--intermediate-solutions"] argv i (some { d with inter := true }) e
    else e) <|
  flag [cs!"-n-i", cs!"--no-intermediate", cs!"--no-intermediate-solutions"] argv i
    (some { d with inter := false }) <|
  (fun e => if d.supportsA then flag [cs!"--all-satisfaction"] argv i (some { d with allSat := true }) e else e) <|
  flag [cs!"--disable-all-satisfaction"] argv i (some { d with allSat := false }) none

/-- lib/solver.cpp 891–944, the loop over the arguments. -/
def driverAll (rd : Word → Option Int) (argv : List Word) : Nat → Nat → Driver → Opts → Option (Driver × Opts)
  | 0, i, d, o => if i < argv.length then none else some (d, o)
  | fuel + 1, i, d, o =>
    if i < argv.length then
      match driverOption d argv i with
      | some d' => driverAll rd argv fuel (i + 1) d' o
      | none =>
        match processOption rd o argv i with
        | none => none
        | some (o', j) => driverAll rd argv fuel (j + 1) d o'
    else some (d, o)

/-- The calls `_sf->processOption(_siOpt, i, {flag})` of 1147 and 1158, whose result is not looked at. -/
def give (rd : Word → Option Int) (o : Opts) (w : Word) : Opts :=
  match processOption rd o [w] 0 with
  | some (o', _) => o'
  | none => o

/-- lib/solver.cpp 1140–1159. -/
def finish (rd : Word → Option Int) (d : Driver) (o : Opts) (isSat : Bool) : Opts :=
  let o := if isSat && d.allSat then (if d.supportsA then give rd o (cs!"-a") else o) else o
  if !isSat && d.inter then give rd o (if d.supportsI then cs!"-i" else cs!"-a") else o

/-- The whole of it: lib/solver.cpp 706–714 (what the configuration declares), the loop, and the start of the solver. -/
def run (rd : Word → Option Int) (sh : Int → Word) (accepted : List (Word × Bool)) (argv : List Word)
    (isSat : Bool) (fzn pth : Word) : Option (List Word × Int) :=
  match driverAll rd argv argv.length 0
      { supportsA := accepted.any (fun f => f.1 == cs!"-a"), supportsI := accepted.any (fun f => f.1 == cs!"-i") }
      (setAccepted {} accepted) with
  | none => none
  | some (d, o) => solve sh (finish rd d o isSat) isSat fzn pth

end FznCmd
end MZ
