import Verif.Utils.Model
import Verif.Lex.StrLit

/-!
# Solver configurations and parameter files

`lib/solver_config.cpp`: the table of solvers and tags, the selection of a solver by `--solver`, default options, and
the types of extra flags.  `lib/param_config.cpp`: the command line options of a parameter file.  `lib/solver.cpp`: the
loop that replaces parameter files on the command line by their options.

Strings are lists of characters; `std::tolower` in the "C" locale changes the letters `A`–`Z` only.
-/

namespace MZ
namespace Conf

/-- Text. -/
abbrev Str := List Char

/-! ## The table of solvers -/

/-- A solver configuration, as far as the selection looks at it, `include/minizinc/solver_config.hh:54-98`. -/
structure Solver where
  id : Str
  name : Str
  version : Str
  tags : List Str
  deriving DecidableEq

/-- The tags that are kept when a configuration file is read, `lib/solver_config.cpp:373-378`. -/
def loadTags (ts : List Str) : List Str := ts.filter (fun t => t ≠ "default".toList)

/-- `string_to_lower`, `lib/solver_config.cpp:230-236`. -/
def lower (s : Str) : Str := s.map Char.toLower

/-- `id.substr(id.find_last_of('.') + 1)`, if there is a dot, `lib/solver_config.cpp:566-568`. -/
def afterLastDot : Str → Option Str
  | [] => none
  | c :: s =>
    match afterLastDot s with
    | some r => some r
    | none => if c = '.' then some s else none

/-- `unordered_map::find` for the map given by its entries (every key once). -/
def find {α} (k : Str) : List (Str × α) → Option α
  | [] => none
  | (k', v) :: m => if k' = k then some v else find k m

/-- `_tagDefault[tag] = id`, `lib/solver_config.cpp:629-634`. -/
def assign {α} (k : Str) (v : α) : List (Str × α) → List (Str × α)
  | [] => [(k, v)]
  | (k', v') :: m => if k' = k then (k', v) :: m else (k', v') :: assign k v m

/-- `it->second.push_back(newIdx)`, or a new entry, `lib/solver_config.cpp:581-588`. -/
def addTag (t : Str) (i : Nat) : List (Str × List Nat) → List (Str × List Nat)
  | [] => [(t, [i])]
  | (k, v) :: m => if k = t then (k, v ++ [i]) :: m else (k, v) :: addTag t i m

/-- The members of `SolverConfigs` that the selection uses, `include/minizinc/solver_config.hh:244-263`. -/
structure Table where
  solvers : List Solver
  tags : List (Str × List Nat)
  defaults : List (Str × Str)
  deriving DecidableEq

/-- All tags under which a solver is entered, `lib/solver_config.cpp:562-579`. -/
def allTags (defaults : List (Str × Str)) (sc : Solver) : List Str :=
  let id := lower sc.id
  let name := lower sc.name
  sc.tags ++ [id] ++
    (match afterLastDot id with
      | some last => if last ≠ name then [last] else []
      | none => []) ++
    [name] ++
    (match find [] defaults with
      | some d => if d = id then ["default".toList] else []
      | none => [])

/-- `SolverConfigs::addConfig`, `lib/solver_config.cpp:559-589`. -/
def addConfig (T : Table) (sc : Solver) : Table :=
  { T with
    solvers := T.solvers ++ [sc],
    tags := (allTags T.defaults sc).foldl (fun m t => addTag t T.solvers.length m) T.tags }

/-- `SolverConfigs::populate`, `lib/solver_config.cpp:703-720`: the built-in solvers, then the configuration files that
could be read, in the order of the search path.  `defaults` is what the configuration files of the user said. -/
def populate (defaults : List (Str × Str)) (scs : List Solver) : Table :=
  scs.foldl addConfig { solvers := [], tags := [], defaults := defaults }

/-! ## Selecting a solver -/

/-- `std::getline(iss, next_s, ',')` until it fails: no word for the end of the text after a comma. -/
def words (sep : Char) : Str → Str → List Str
  | [], cur => if cur = [] then [] else [cur]
  | c :: s, cur =>
    if c = sep then cur :: words sep s []
    else words sep s (cur ++ [c])

/-- `get_tag`, `lib/solver_config.cpp:789`. -/
def getTag (t : Str) : Str := t.takeWhile (· ≠ '@')

/-- `get_version`, `lib/solver_config.cpp:790-793`. -/
def getVersion (t : Str) : Str := (t.dropWhile (· ≠ '@')).drop 1

/-- `std::set<int>::insert`: the elements are kept in increasing order. -/
def insert (i : Nat) : List Nat → List Nat
  | [] => [i]
  | j :: s => if i < j then i :: j :: s else if i = j then j :: s else j :: insert i s

/-- `std::set_intersection` of two sorted ranges. -/
def intersect : List Nat → List Nat → List Nat
  | [], _ => []
  | _ :: _, [] => []
  | i :: s, j :: t =>
    if i < j then intersect s (j :: t)
    else if j < i then intersect (i :: s) t
    else i :: intersect s t
termination_by s t => s.length + t.length

/-- The solvers of a tag that have the version, or all if there is no version, `lib/solver_config.cpp:830-834`, `:851-856`. -/
def withVersion (T : Table) (tv : Str) (idx : List Nat) : List Nat :=
  idx.foldl (fun s i => if tv = [] ∨ some tv = (T.solvers[i]?).map Solver.version then insert i s else s) []

/-- The solvers for the first tag, `lib/solver_config.cpp:823-841`. -/
def selectFirst (T : Table) (w : Str) : Option (List Nat) :=
  match find (getTag w) T.tags with
  | none => none
  | some idx =>
    let sel := withVersion T (getVersion w) idx
    some (if sel = [] then idx.foldl (fun s i => insert i s) [] else sel)

/-- The loop over the other tags, `lib/solver_config.cpp:845-868`: the remaining solvers and the default solvers. -/
def selectRest (T : Table) : List Str → List Nat → List Str → Option (List Nat × List Str)
  | [], sel, defs => some (sel, defs)
  | w :: ws, sel, defs =>
    match find (getTag w) T.tags with
    | none => none
    | some idx =>
      let sel := intersect sel (withVersion T (getVersion w) idx)
      if sel = [] then none
      else
        selectRest T ws sel
          (match find (getTag w) T.defaults with
            | some d => d :: defs
            | none => defs)

/-- The choice among the remaining solvers, `lib/solver_config.cpp:869-884`. -/
def choose (T : Table) (defs : List Str) (sel : List Nat) : Option Nat :=
  if 1 < sel.length then
    match sel.find? (fun i => ((T.solvers[i]?).map (fun sc => decide (sc.id ∈ defs))).getD false) with
    | some i => some i
    | none => sel.head?
  else sel.head?

/-- The selection once the first tag is known, `lib/solver_config.cpp:823-884`. -/
def selectFrom (T : Table) (w : Str) (ws : List Str) : Option Nat := do
  let sel ← selectFirst T w
  let (sel, defs) ← selectRest T ws sel
    (match find (getTag w) T.defaults with
      | some d => [d]
      | none => [])
  choose T defs sel

/-- `SolverConfigs::config`, `lib/solver_config.cpp:796-885`, for a text that is not the name of a configuration file:
the number of the solver, or no result if a `ConfigException` is thrown. -/
def select (T : Table) (s : Str) : Option Nat :=
  match words ',' (lower s) [] with
  | [] =>
    match find [] T.defaults with
    | some d => selectFrom T d []
    | none => none
  | w :: ws => selectFrom T w ws

/-- `SolverConfigs::config`, `lib/solver_config.cpp:796-802`: a text that ends in `.msc` is the name of a configuration file, which is
read (`load`) and added to the table. -/
def config (load : Str → Option Solver) (T : Table) (s : Str) : Option (Table × Nat) :=
  if 4 < s.length ∧ s.drop (s.length - 4) = ".msc".toList then
    match load s with
    | some sc => some (addConfig T sc, T.solvers.length)
    | none => none
  else (select T s).map (fun i => (T, i))

/-! ## Default options -/

/-- The loop over the options of a solver, in which names and values alternate, `lib/solver_config.cpp:644-660`. -/
def setOption (o v : Str) : List Str → List Str
  | o' :: v' :: r => if o' = o then o' :: v :: r else o' :: v' :: setOption o v r
  | r => r ++ [o, v]

/-- One entry of `solverDefaults`, `lib/solver_config.cpp:635-661`. -/
def addDefault (m : List (Str × List Str)) (e : Str × Str × Str) : List (Str × List Str) :=
  match find e.1 m with
  | none => m ++ [(e.1, [e.2.1, e.2.2])]
  | some opts => assign e.1 (setOption e.2.1 e.2.2 opts) m

/-- `SolverConfigs::defaultOptions`, `lib/solver_config.cpp:887-899`, after the entries of all configuration files were read. -/
def defaultOptions (entries : List (Str × Str × Str)) (id : Str) : List Str :=
  match find id (entries.foldl addDefault []) with
  | some opts => opts.filter (fun s => s ≠ [])
  | none => []

/-! ## Extra flags -/

/-- The types of extra flags, `include/minizinc/solver_config.hh:33`. -/
inductive FlagType where
  | bool | int | float | string
  deriving DecidableEq

/-- The type of an extra flag, `lib/solver_config.cpp:187-198`; other texts leave the variable without a value. -/
def flagType (full : Str) : Option FlagType :=
  let t := full.takeWhile (· ≠ ':')
  if t = "bool".toList then some .bool
  else if t = "int".toList then some .int
  else if t = "float".toList then some .float
  else if t = "string".toList ∨ t = "opt".toList then some .string
  else none

/-- The loop that splits the range, `lib/solver_config.cpp:201-205`. -/
def rangeLoop : Nat → Str → List Str
  | 0, _ => []
  | n + 1, s =>
    if s = [] then []
    else s.takeWhile (· ≠ ':') :: rangeLoop n ((s.dropWhile (· ≠ ':')).drop 1)

/-- The range of an extra flag, `lib/solver_config.cpp:199-206`. -/
def flagRange (full : Str) : List Str :=
  let r := (full.dropWhile (· ≠ ':')).drop 1
  rangeLoop r.length r

/-- `i >= sto(range[0]) && i <= sto(range[1])`, `lib/solver_config.cpp:51-58`: a conversion that fails throws an exception and
makes the result `false`; a missing element is undefined behaviour. -/
def inRange {α} (le : α → α → Bool) (sto : Str → Option α) (range : List Str) (v : Str) : Res Bool :=
  match sto v with
  | none => .ok false
  | some i =>
    match range with
    | [] => .ok true
    | a :: rest =>
      match sto a with
      | none => .ok false
      | some lo =>
        if le lo i then
          match rest with
          | [] => .ub
          | b :: _ =>
            match sto b with
            | none => .ok false
            | some hi => .ok (le i hi)
        else .ok false

/-- `std::stoll`: the longest prefix that is a number; the rest is ignored. -/
def stoll (s : Str) : Option Int :=
  match Utils.sto LMIN LMAX s with
  | .ok (v, _) => some v
  | _ => none

/-- `ExtraFlag::validate`, `lib/solver_config.cpp:45-66`.  `stod` is `std::stod` on some ordered type of numbers. -/
def validate {α} (le : α → α → Bool) (stod : Str → Option α) (t : Option FlagType) (range : List Str) (v : Str) : Res Bool :=
  match t with
  | none => .ub
  | some .bool => .ok (decide (range = [] ∨ v ∈ range))
  | some .string => .ok (decide (range = [] ∨ v ∈ range))
  | some .int => inRange (fun a b => decide (a ≤ b)) stoll range v
  | some .float => inRange le stod range v

/-! ## Parameter files -/

/-- The JSON values that parameter files can use; numbers by their text.  (Arrays in arrays are left out.) -/
inductive Atom where
  | bool (b : Bool)
  | str (s : Str)
  | num (text : Str)
  | other
  deriving DecidableEq

/-- The entries of a JSON object as items of a model: assignments, and inclusions for nested objects,
`lib/json_parser.cpp:1013-1027`. -/
inductive Item where
  | atom (k : Str) (a : Atom)
  | arr (k : Str) (l : List Atom)
  | obj (k : Str) (m : List Item)

/-- The vector that stands for an array literal, `ArrayLit::compress`, `lib/ast.cpp:507-529`: if the first four elements are
equal, all equal elements at the front are stored once.  `getVec` returns this vector (`include/minizinc/ast.hh:936-939`). -/
def getVec (l : List Atom) : List Atom :=
  match l with
  | a :: b :: c :: d :: r => if a = b ∧ b = c ∧ c = d then a :: r.dropWhile (· = a) else l
  | _ => l

/-- `ParamConfig::flagName`, `lib/param_config.cpp:93-100`. -/
def flagName (k : Str) : Str :=
  match k with
  | '-' :: _ => k
  | _ => "--".toList ++ k

/-- `ParamConfig::addValue` for a value that is not an array, `lib/param_config.cpp:46-91`; `none`: a `ParamException`.
`neg` are the flags with a negated version. -/
def addAtom (black : List Str) (neg : List (Str × Str)) (k : Str) (a : Atom) : Option (List Str) :=
  let flag := flagName k
  if flag ∈ black then none
  else
    match a with
    | .bool true => some [flag]
    | .bool false =>
      match find flag neg with
      | some f => some [f]
      | none => some []
    | .str s => some [flag, s]
    | .num t => some [flag, t]
    | .other => none

/-- The loop over the elements of an array, `lib/param_config.cpp:53-59`. -/
def addAtoms (black : List Str) (neg : List (Str × Str)) (k : Str) : List Atom → Option (List Str)
  | [] => some []
  | a :: l => do
    let v ← addAtom black neg k a
    let r ← addAtoms black neg k l
    some (v ++ r)

mutual
/-- One item in `ParamConfig::modelToString`, `lib/param_config.cpp:102-141`.  The elements of an array are printed as
pointers, `ss << " " << exp`: `addr i` is the text of the address of element `i`. -/
def itemText (addr : Nat → Str) : Item → Option Str
  | .atom k (.bool true) => some (' ' :: flagName k)
  | .atom _ (.bool false) => some []
  | .atom k (.str s) => some (' ' :: flagName k ++ ' ' :: s)
  | .atom k (.num t) => some (' ' :: flagName k ++ ' ' :: t)
  | .atom _ .other => none
  | .arr k l =>
    some ((List.range (getVec l).length).flatMap (fun i => ' ' :: flagName k ++ ' ' :: addr i))
  | .obj k m => do
    let s ← modelText addr m
    some (' ' :: flagName k ++ " \"".toList ++ Lex.escape s ++ "\"".toList)

/-- `ParamConfig::modelToString`, `lib/param_config.cpp:102-141`; `ss.str().substr(1)` throws `std::out_of_range` for the empty text. -/
def modelText (addr : Nat → Str) (m : List Item) : Option Str := do
  let s ← itemsText addr m
  if s = [] then none else some (s.drop 1)

/-- The loop over the items. -/
def itemsText (addr : Nat → Str) : List Item → Option Str
  | [] => some []
  | i :: m => do
    let s ← itemText addr i
    let r ← itemsText addr m
    some (s ++ r)
end

/-- One item in `ParamConfig::load`, `lib/param_config.cpp:27-37`. -/
def loadItem (addr : Nat → Str) (black : List Str) (neg : List (Str × Str)) : Item → Option (List Str)
  | .atom k a => addAtom black neg k a
  | .arr k l => if flagName k ∈ black then none else addAtoms black neg k (getVec l)
  | .obj k m =>
    if flagName k ∈ black then none
    else (modelText addr m).map (fun s => [flagName k, s])

/-- `ParamConfig::load`, `lib/param_config.cpp:20-44`: the arguments that a parameter file stands for. -/
def load (addr : Nat → Str) (black : List Str) (neg : List (Str × Str)) : List Item → Option (List Str)
  | [] => some []
  | i :: m => do
    let v ← loadItem addr black neg i
    let r ← load addr black neg m
    some (v ++ r)

/-- The flags that are not allowed in parameter files, `lib/solver.cpp:424-425`. -/
def blacklist : List Str :=
  ["--solvers".toList, "--solvers-json".toList, "--solver-json".toList, "--help".toList, "-h".toList, "--config-dirs".toList]

/-- The flags with a negated version, `lib/solver.cpp:426-429`. -/
def negated : List (Str × Str) :=
  [("-i".toList, "-n-i".toList), ("--intermediate".toList, "--no-intermediate".toList),
   ("--intermediate-solutions".toList, "--no-intermediate-solutions".toList),
   ("--all-satisfaction".toList, "--disable-all-satisfaction".toList)]

/-! ## Replacing parameter files on the command line -/

/-- The file system: the arguments of a parameter file, the absolute path of a file relative to a directory
(`FileUtils::file_path`), and the absolute path of the directory of a file. -/
structure Files where
  args : Str → Option (List Str)
  path : Str → Str → Str
  dir : Str → Str

/-- The hidden options that change the directory, `lib/solver.cpp:408-412`. -/
def pushFlag : Str := "--push-working-directory".toList
/-- See `pushFlag`. -/
def popFlag : Str := "--pop-working-directory".toList
/-- `lib/solver.cpp:392` -/
def fileFlag : Str := "--param-file".toList
/-- `lib/solver.cpp:399` -/
def fileNoPushFlag : Str := "--param-file-no-push".toList

/-- The name ends in `.mpc`, `lib/solver.cpp:414-417`. -/
def isParamFile (a : Str) : Bool := decide (afterLastDot a = some "mpc".toList)

/-- The outcome of the loop; `more`: not finished within the number of rounds. -/
inductive Out where
  | ok (argv : List Str) (dirs : List Str)
  | err
  | ub
  | more
  deriving DecidableEq

/-- What the options of a parameter file become, `lib/solver.cpp:432-446`. -/
def inserted (F : Files) (push : Bool) (p : Str) (args : List Str) : List Str :=
  if push then pushFlag :: F.dir p :: args ++ [popFlag] else args

/-- The loop that adds parameters from files, `lib/solver.cpp:384-457`.  The vector is split into what comes before `i` and what
comes from `i` on (`erase` and `insert` work at `i`); the head of `dirs` is `workingDirs.back()`, the empty list an empty
vector (undefined behaviour when it is used). -/
def expand (F : Files) : Nat → List Str → List Str → List Str → List Str → Out
  | 0, _, _, _, _ => .more
  | _ + 1, done, [], dirs, _ => .ok done dirs
  | n + 1, done, a :: rest, dirs, seen =>
    let file (push : Bool) (f : Str) (keep rest : List Str) : Out :=
      if f = [] then expand F n (done ++ keep) rest dirs seen
      else
        match dirs with
        | [] => .ub
        | d :: _ =>
          let p := F.path f d
          if p ∈ seen then .err
          else
            match F.args p with
            | none => .err
            | some args => expand F n done (inserted F push p args ++ rest) dirs (p :: seen)
    if a = fileFlag then
      match rest with
      | [] => .err
      | f :: rest => file true f [a, f] rest
    else if a = fileNoPushFlag then
      match rest with
      | [] => .err
      | f :: rest => file false f [a, f] rest
    else if a = pushFlag then
      match rest with
      | [] => .ub
      | d :: rest => expand F n (done ++ [a, d]) rest (d :: dirs) seen
    else if a = popFlag then
      match dirs with
      | [] => .ub
      | _ :: ds => expand F n (done ++ [a]) rest ds seen
    else if isParamFile a then file true a [a] rest
    else expand F n (done ++ [a]) rest dirs seen

/-- The loop over the arguments that follows, `lib/solver.cpp:910-951`: each argument with the directory it is processed in.  (Options
that take several arguments at once are not distinguished; the directory is the same for all of them.) -/
def visit : List Str → List Str → Res (List (Str × Str))
  | [], _ => .ok []
  | [a], dirs =>
    if a = pushFlag then .ub
    else if a = popFlag then (match dirs with | [] => .ub | _ :: _ => .ok [])
    else (match dirs with | [] => .ub | d :: _ => .ok [(d, a)])
  | a :: b :: rest, dirs =>
    if a = pushFlag then visit rest (b :: dirs)
    else if a = popFlag then (match dirs with | [] => .ub | _ :: ds => visit (b :: rest) ds)
    else
      match dirs with
      | [] => .ub
      | d :: _ =>
        match visit (b :: rest) dirs with
        | .ok r => .ok ((d, a) :: r)
        | .err => .err
        | .ub => .ub

end Conf
end MZ
