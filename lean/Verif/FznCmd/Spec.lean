import Mathlib.Data.List.Forall2
/-!
# Specification: options of an external solver

`Req` is something a user asks for, `Spelled` the ways to write it on the command line (the solver's help text), and
`Expected` the command line the solver should get. `std` are the standard flags that the solver's configuration
declares, `words` the splitting of a text into words, `rd` the number a text denotes and `sh` the text of a number.
-/
namespace MZ
namespace FznCmd
namespace Spec

abbrev W := List Char

inductive Req where
  | solver (exe : W) | backend (b : W) | words (t : W) | word (w : W)
  | limit (ms : Int) | cleanup (ms : Int) | sigint | paths | passthrough | interactive
  | all | intermediate | num (n : Int) | numOptimal (n : Int) | allOptimal
  | parallel (n : Int) | keep | seed (s : W) | stats | verbose | free | profiler (s : W)
  | extra (name : W) | extraArg (name value : W)

/-- Every keyword that has a meaning of its own. -/
def known : List W := [
  "--fzn-cmd", "--flatzinc-cmd", "-b", "--backend", "--solver-backend", "--fzn-flags", "--flatzinc-flags",
  "--backend-flags", "-t", "--solver-time-limit", "--cleanup-time-limit", "--fzn-sigint", "--fzn-needs-paths",
  "--fzn-output-passthrough", "--fzn-interactive", "--fzn-flag", "--flatzinc-flag", "--backend-flag",
  "-n", "--num-solutions", "-a", "-i", "-n-o", "--num-optimal", "-a-o", "--all-opt", "--all-optimal",
  "-p", "--parallel", "-k", "--keep-files", "-r", "--seed", "--random-seed", "-s", "--solver-statistics",
  "-v", "--verbose-solving", "-f", "--free-search", "--cp-profiler"].map String.toList

/-- `Spelled rd accepted r ws`: the words `ws` are a way to ask for `r`, given to a solver that declares the flags
`accepted` (with whether they take an argument). -/
inductive Spelled (rd : W → Option Int) (accepted : List (W × Bool)) : Req → List W → Prop
  | solver (k v : W) : k ∈ ["--fzn-cmd", "--flatzinc-cmd"].map String.toList →
      Spelled rd accepted (.solver v) [k, v]
  | backend (k v : W) : k ∈ ["-b", "--backend", "--solver-backend"].map String.toList →
      Spelled rd accepted (.backend v) [k, v]
  | words (k v : W) : k ∈ ["--fzn-flags", "--flatzinc-flags", "--backend-flags"].map String.toList →
      Spelled rd accepted (.words v) [k, v]
  | word (k v : W) : k ∈ ["--fzn-flag", "--flatzinc-flag", "--backend-flag"].map String.toList →
      Spelled rd accepted (.word v) [k, v]
  | limit (k v : W) (n : Int) : k ∈ ["-t", "--solver-time-limit"].map String.toList → rd v = some n →
      Spelled rd accepted (.limit n) [k, v]
  | cleanup (v : W) (n : Int) : rd v = some n →
      Spelled rd accepted (.cleanup n) ["--cleanup-time-limit".toList, v]
  | sigint : Spelled rd accepted .sigint ["--fzn-sigint".toList]
  | paths : Spelled rd accepted .paths ["--fzn-needs-paths".toList]
  | passthrough : Spelled rd accepted .passthrough ["--fzn-output-passthrough".toList]
  | interactive : Spelled rd accepted .interactive ["--fzn-interactive".toList]
  | all : Spelled rd accepted .all ["-a".toList]
  | intermediate : Spelled rd accepted .intermediate ["-i".toList]
  | num (k v : W) (n : Int) (f : W × Bool) : f ∈ accepted → f.1 = "-n".toList →
      k ∈ ["-n", "--num-solutions"].map String.toList → rd v = some n → Spelled rd accepted (.num n) [k, v]
  | numOptimal (k v : W) (n : Int) (f : W × Bool) : f ∈ accepted → f.1 = "-n-o".toList →
      k ∈ ["-n-o", "--num-optimal"].map String.toList → rd v = some n → Spelled rd accepted (.numOptimal n) [k, v]
  | allOptimal (k : W) (f : W × Bool) : f ∈ accepted → f.1 = "-a-o".toList →
      k ∈ ["-a-o", "--all-opt", "--all-optimal"].map String.toList → Spelled rd accepted .allOptimal [k]
  | parallel (k v : W) (n : Int) : k ∈ ["-p", "--parallel"].map String.toList → rd v = some n →
      Spelled rd accepted (.parallel n) [k, v]
  | keep (k : W) : k ∈ ["-k", "--keep-files"].map String.toList → Spelled rd accepted .keep [k]
  | seed (k v : W) : k ∈ ["-r", "--seed", "--random-seed"].map String.toList →
      Spelled rd accepted (.seed v) [k, v]
  | stats (k : W) : k ∈ ["-s", "--solver-statistics"].map String.toList → Spelled rd accepted .stats [k]
  | verbose (k : W) : k ∈ ["-v", "--verbose-solving"].map String.toList → Spelled rd accepted .verbose [k]
  | free (k : W) : k ∈ ["-f", "--free-search"].map String.toList → Spelled rd accepted .free [k]
  | profiler (v : W) (f : W × Bool) : f ∈ accepted → f.1 = "--cp-profiler".toList →
      Spelled rd accepted (.profiler v) ["--cp-profiler".toList, v]
  /-- Short options with their value in the same word, as in `-t500`. -/
  | backendJoined (c : Char) (v : W) : Spelled rd accepted (.backend (c :: v)) ['-' :: 'b' :: c :: v]
  | limitJoined (c : Char) (v : W) (n : Int) : rd (c :: v) = some n →
      Spelled rd accepted (.limit n) ['-' :: 't' :: c :: v]
  | numJoined (c : Char) (v : W) (n : Int) (f : W × Bool) : f ∈ accepted → f.1 = "-n".toList → rd (c :: v) = some n →
      Spelled rd accepted (.num n) ['-' :: 'n' :: c :: v]
  | parallelJoined (c : Char) (v : W) (n : Int) : rd (c :: v) = some n →
      Spelled rd accepted (.parallel n) ['-' :: 'p' :: c :: v]
  | seedJoined (c : Char) (v : W) : Spelled rd accepted (.seed (c :: v)) ['-' :: 'r' :: c :: v]
  /-- A flag of the solver: it begins with two dashes, is not one of the keywords above and is declared once. -/
  | extra (t : W) : ('-' :: '-' :: t, false) ∈ accepted → ('-' :: '-' :: t, true) ∉ accepted →
      '-' :: '-' :: t ∉ known → Spelled rd accepted (.extra ('-' :: '-' :: t)) ['-' :: '-' :: t]
  | extraArg (t v : W) : ('-' :: '-' :: t, true) ∈ accepted → ('-' :: '-' :: t, false) ∉ accepted →
      '-' :: '-' :: t ∉ known → Spelled rd accepted (.extraArg ('-' :: '-' :: t) v) ['-' :: '-' :: t, v]

/-- The last value the user gave, or a default. -/
def last {α : Type} (f : Req → Option α) (d : α) (rs : List Req) : α := ((rs.filterMap f).getLast?).getD d

/-- What is handed on at once, in the order given: pieces of text meant for the solver, and flags it declares. -/
def handed (std : String → Bool) (split : W → List W) : Req → List W
  | .words t => split t
  | .word w => [w]
  | .all => ["-a".toList]
  | .intermediate => ["-i".toList]
  | .seed s => if std "-r" then ["-r".toList, s] else []
  | .free => if std "-f" then ["-f".toList] else []
  | .profiler s => ["--cp-profiler".toList, s]
  | .extra n => [n]
  | .extraArg n v => [n, v]
  | _ => []

def exe (rs : List Req) : W := last (fun | .solver e => some e | _ => none) [] rs
def limit (rs : List Req) : Int := last (fun | .limit n => some n | _ => none) 0 rs
def cleanup (rs : List Req) : Int := last (fun | .cleanup n => some n | _ => none) 1000 rs
def backend (rs : List Req) : W := last (fun | .backend b => some b | _ => none) [] rs
def num (rs : List Req) : Int := last (fun | .num n => some n | _ => none) 1 rs
def numOptimal (rs : List Req) : Int := last (fun | .numOptimal n => some n | _ => none) 1 rs
def parallel (rs : List Req) : Option Int := last (fun | .parallel n => some (some n) | _ => none) none rs

/-- An option with a value if a condition holds. -/
def opt (c : Prop) [Decidable c] (ws : List W) : List W := if c then ws else []

open Classical in
/-- The command line a solver should get. -/
noncomputable def expected (std : String → Bool) (split : W → List W) (sh : Int → W) (rs : List Req) (isSat : Prop)
    (fzn pth : W) : List W :=
  [exe rs] ++ rs.flatMap (handed std split)
    ++ opt (backend rs ≠ []) ["-b".toList, backend rs]
    ++ opt (¬ isSat ∧ .allOptimal ∈ rs) ["-a-o".toList]
    ++ opt (¬ isSat ∧ numOptimal rs ≠ 1) ["-n-o".toList, sh (numOptimal rs)]
    ++ opt (isSat ∧ num rs ≠ 1) ["-n".toList, sh (num rs)]
    ++ (if std "-p" then (parallel rs).elim [] (fun n => ["-p".toList, sh n]) else [])
    ++ opt (std "-s" ∧ .stats ∈ rs) ["-s".toList]
    ++ opt (std "-t" ∧ limit rs ≠ 0) ["-t".toList, sh (limit rs)]
    ++ opt (std "-v" ∧ .verbose ∈ rs) ["-v".toList]
    ++ [fzn]
    ++ opt (.paths ∈ rs) ["--paths".toList, pth]

/-- When the solver is stopped from outside: after the time limit, or after a further grace period if the solver
watches the limit itself; never without a limit. -/
def stopAfter (std : String → Bool) (rs : List Req) : Int :=
  if limit rs = 0 then 0 else if std "-t" then limit rs + cleanup rs else limit rs

end Spec
end FznCmd
end MZ
