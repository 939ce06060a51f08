import Verif.Conf.Model

/-!
# Specification of the selection of solvers and of parameter files

After `docs/en/command_line.rst` (`--solver`, *User configuration files*, *Command-line parameter files*).
-/

namespace MZ
namespace Conf

/-! ## Selecting a solver -/

/-- A solver can be asked for by its tags, its identifier, its name, the last component of its identifier, and by
`default` if it is the default solver.  Identifiers and names are written in lower case here. -/
def Carries (defaults : List (Str × Str)) (sc : Solver) (t : Str) : Prop :=
  t ∈ sc.tags ∨ t = lower sc.id ∨ t = lower sc.name ∨ (∃ p, lower sc.id = p ++ '.' :: t ∧ '.' ∉ t) ∨
    (t = "default".toList ∧ defaults.lookup [] = some (lower sc.id))

/-- One thing that is asked for: a tag, with a version or without (the empty text). -/
structure Req where
  tag : Str
  version : Str

/-- `tag@version` or `tag` -/
def Req.text (r : Req) : Str := if r.version = [] then r.tag else r.tag ++ '@' :: r.version

/-- Tags are not empty and contain no `,` or `@`; versions contain no `,`. -/
def Req.Ok (r : Req) : Prop := r.tag ≠ [] ∧ ',' ∉ r.tag ∧ '@' ∉ r.tag ∧ ',' ∉ r.version

/-- The text after `--solver`: the things asked for, with commas in between. -/
def reqText (rs : List Req) : Str := List.intercalate [','] (rs.map Req.text)

/-- Solver `i` has all that is asked for.  The version of the first tag does not count if there is no solver with that tag and
that version. -/
def Candidate (defaults : List (Str × Str)) (scs : List Solver) (rs : List Req) (i : Nat) : Prop :=
  ∃ sc, scs[i]? = some sc ∧ ∀ k r, rs[k]? = some r →
    Carries defaults sc (lower r.tag) ∧
    (r.version = [] ∨ sc.version = lower r.version ∨
      (k = 0 ∧ ∀ sc' ∈ scs, Carries defaults sc' (lower r.tag) → sc'.version ≠ lower r.version))

/-- Solver `i` is the default solver for one of the tags. -/
def Preferred (defaults : List (Str × Str)) (scs : List Solver) (rs : List Req) (i : Nat) : Prop :=
  ∃ sc, scs[i]? = some sc ∧ ∃ r ∈ rs, defaults.lookup (lower r.tag) = some sc.id

/-- The solver to use: the first candidate that is a default solver, or the first candidate if there is none. -/
def Chosen (defaults : List (Str × Str)) (scs : List Solver) (rs : List Req) (i : Nat) : Prop :=
  Candidate defaults scs rs i ∧
  ((Preferred defaults scs rs i ∧ ∀ j, Candidate defaults scs rs j → Preferred defaults scs rs j → i ≤ j) ∨
   ((∀ j, Candidate defaults scs rs j → ¬ Preferred defaults scs rs j) ∧ ∀ j, Candidate defaults scs rs j → i ≤ j))

/-! ## Default options -/

/-- The options that are set for a solver, each once, in the order in which they are first set. -/
def optionNames (entries : List (Str × Str × Str)) (id : Str) : List Str :=
  ((entries.filter (fun e => e.1 = id)).map (fun e => e.2.1)).eraseDups

/-- The last value of an option. -/
def lastValue (entries : List (Str × Str × Str)) (id o : Str) : Str :=
  (((entries.filter (fun e => e.1 = id ∧ e.2.1 = o)).map (fun e => e.2.2)).getLast?).getD []

/-! ## Parameter files -/

/-- The command line for one entry of a parameter file. -/
def atomArgs (neg : List (Str × Str)) (k : Str) : Atom → List Str
  | .bool true => [flagName k]
  | .bool false => (neg.lookup (flagName k)).toList
  | .str s => [flagName k, s]
  | .num t => [flagName k, t]
  | .other => []

/-- The words of an entry of a nested object; entries that are `false` have none. -/
def atomWords (k : Str) : Atom → List Str
  | .bool true => [flagName k]
  | .bool false => []
  | .str s => [flagName k, s]
  | .num t => [flagName k, t]
  | .other => []

/-- An argument that stands for itself. -/
def Plain (a : Str) : Prop :=
  a ≠ fileFlag ∧ a ≠ fileNoPushFlag ∧ a ≠ pushFlag ∧ a ≠ popFlag ∧ isParamFile a = false

/-- The arguments `args`, given in directory `d`, stand for the arguments `out`, each with the directory it is relative to.
Files are replaced by the arguments they contain; relative names in a file are relative to the directory of the file, unless the
file was given with `--param-file-no-push`.  `seen` are the files used before and `seen'` those used afterwards: no file is used twice. -/
inductive Expands (F : Files) : Str → List Str → List Str → List (Str × Str) → List Str → Prop
  | nil (d seen) : Expands F d seen [] [] seen
  | plain {d seen a rest out seen'} : Plain a → Expands F d seen rest out seen' →
      Expands F d seen (a :: rest) ((d, a) :: out) seen'
  | file {d seen f rest args out1 seen1 out2 seen2} : f ≠ [] → F.path f d ∉ seen → F.args (F.path f d) = some args →
      Expands F (F.dir (F.path f d)) (F.path f d :: seen) args out1 seen1 → Expands F d seen1 rest out2 seen2 →
      Expands F d seen (fileFlag :: f :: rest) (out1 ++ out2) seen2
  | name {d seen f rest args out1 seen1 out2 seen2} : isParamFile f = true → F.path f d ∉ seen →
      F.args (F.path f d) = some args →
      Expands F (F.dir (F.path f d)) (F.path f d :: seen) args out1 seen1 → Expands F d seen1 rest out2 seen2 →
      Expands F d seen (f :: rest) (out1 ++ out2) seen2
  | noPush {d seen f rest args out1 seen1 out2 seen2} : f ≠ [] → F.path f d ∉ seen → F.args (F.path f d) = some args →
      Expands F d (F.path f d :: seen) args out1 seen1 → Expands F d seen1 rest out2 seen2 →
      Expands F d seen (fileNoPushFlag :: f :: rest) (out1 ++ out2) seen2

end Conf
end MZ
