/-!
# Included files

The loading of a model with its included files (`parse`, lib/parser.cpp 98–300; `canonicalFilename`, 58–78; the action for include
items, lib/parser.yxx 489–510), the iteration over all items (`ItemIter::run`, include/minizinc/model.hh 568–620) and the deletion of
models (`~Model`, lib/model.cpp 86–95). The text of a file is the list of its items. Models given as a text, FlatZinc files and data
files, warnings and syntax errors are left out.
-/
namespace MZ
namespace Incl

/-- An item in a file: an include with the file name as written, or any other item. -/
inductive Src where
  | inc (f : String)
  | other (n : Nat)
deriving DecidableEq, Repr

/-- What is used of the file system: `file_path` (realpath), `file_exists`, `dir_name`, `base_name` and the items in a file. -/
structure FS where
  real : String → String
  isFile : String → Bool
  dirName : String → String
  baseName : String → String
  content : String → List Src

/-- file_utils.cpp `is_absolute`. -/
def isAbsolute (s : String) : Bool := s.toList.head? == some '/'

/-- parser.cpp 62–67: the first include path with the file. -/
def inPaths (fs : FS) (f : String) : List String → Option String
  | [] => none
  | ip :: ips => if fs.isFile (fs.real (ip ++ "/" ++ f)) then some (fs.real (ip ++ "/" ++ f)) else inPaths fs f ips

/-- parser.cpp 58–78 `canonicalFilename`: `filename` is the including file. -/
def canon (fs : FS) (paths : List String) (filename f : String) : String :=
  if isAbsolute f || filename == "" then f
  else
    match inPaths fs f paths with
    | some n => n
    | none =>
      let parent := if fs.dirName filename == "" then "." else fs.dirName filename
      let full := fs.real (parent ++ "/" ++ f)
      if fs.isFile full then full else f

/-- An item of a loaded model: an include item with its model and whether it owns it, or another item. -/
inductive PItem where
  | inc (m : Nat) (own : Bool)
  | other (n : Nat)
deriving DecidableEq, Repr

/-- `Model`: models are numbered in the order in which they are created. -/
structure M where
  file : String
  parent : Option Nat
  items : List PItem
deriving DecidableEq, Repr

/-- parser.hh 68–83 `ParseWorkItem`. -/
structure W where
  m : Nat
  file : String
deriving DecidableEq, Repr

/-- All models, `files` (last element first) and `seenModels`. -/
structure St where
  models : List M
  files : List W
  seen : List (String × Nat)
deriving DecidableEq, Repr

/-- `Model::addItem`. -/
def addItem (ms : List M) (m : Nat) (i : PItem) : List M := ms.modify m fun x => { x with items := x.items ++ [i] }

/-- `seenModels.find`. -/
def lookup : List (String × Nat) → String → Option Nat
  | [], _ => none
  | (n, k) :: r, f => if n = f then some k else lookup r f

/-- parser.yxx 489–510: an include item in the file of model `m`. -/
def includeItem (fs : FS) (paths : List String) (m : Nat) (file : String) (st : St) (f : String) : St :=
  let name := canon fs paths file f
  match lookup st.seen name with
  | some j => { st with models := addItem st.models m (.inc j false) }
  | none =>
    let k := st.models.length
    { models := addItem (st.models ++ [⟨name, some m, []⟩]) m (.inc k true)
      files := ⟨k, name⟩ :: st.files
      seen := (name, k) :: st.seen }

/-- The parser: the items of the file one after the other. -/
def parseItems (fs : FS) (paths : List String) (m : Nat) (file : String) : List Src → St → St
  | [], st => st
  | .inc f :: r, st => parseItems fs paths m file r (includeItem fs paths m file st f)
  | .other n :: r, st => parseItems fs paths m file r { st with models := addItem st.models m (.other n) }

/-- parser.cpp 205–213: the file name of a parent is the same. `fuel` is the number of models. -/
def chainHas (ms : List M) (f : String) : Nat → Option Nat → Bool
  | _, none => false
  | 0, some _ => false
  | fuel + 1, some p =>
    match ms[p]? with
    | some x => x.file == f || chainHas ms f fuel x.parent
    | none => false

/-- parser.cpp 237–254: companions `….deprecated.mzn` in the include paths; `map::insert` does not replace. Each is put on the stack
twice. -/
def deprecated (fs : FS) (m : Nat) (file : String) : List String → St → St
  | [], st => st
  | ip :: ips, st =>
    let name := ip ++ "/" ++ fs.baseName file ++ ".deprecated.mzn"
    if fs.isFile name then
      let k := st.models.length
      deprecated fs m file ips
        { models := addItem (st.models ++ [⟨name, none, []⟩]) m (.inc k true)
          files := ⟨k, fs.real name⟩ :: ⟨k, name⟩ :: st.files
          seen := if (lookup st.seen name).isSome then st.seen else (name, k) :: st.seen }
    else deprecated fs m file ips st

/-- The outcome of a step: go on, finished, an include cycle, a file that cannot be opened. -/
inductive Out where
  | more (st : St)
  | done (st : St)
  | cyclic
  | missing
deriving DecidableEq, Repr

/-- parser.cpp 185–290: one round of the loop. -/
def step (fs : FS) (paths : List String) (st : St) : Out :=
  match st.files with
  | [] => .done st
  | w :: rest =>
    if chainHas st.models w.file st.models.length ((st.models[w.m]?).bind (·.parent)) then .cyclic
    else if ¬(isAbsolute w.file && fs.isFile w.file) then .missing
    else .more (parseItems fs paths w.m w.file (fs.content w.file) (deprecated fs w.m w.file paths { st with files := rest }))

/-- The loop; `none` if it is not finished after `fuel` rounds. -/
def run (fs : FS) (paths : List String) : Nat → St → Option Out
  | 0, _ => none
  | fuel + 1, st =>
    match step fs paths st with
    | .more st' => run fs paths fuel st'
    | o => some o

/-- parser.cpp 106–183: the model of the first file and an included model for each other file and library, the last of which is
processed first. -/
def initial (root : String) (libs : List String) : St :=
  { models := ⟨root, none, (List.range libs.length).map fun i => .inc (i + 1) true⟩ :: libs.map fun f => ⟨f, none, []⟩
    files := (libs.zipIdx.map fun p => ⟨p.2 + 1, p.1⟩).reverse ++ [⟨0, root⟩]
    seen := (libs.zipIdx.map fun p => (p.1, p.2 + 1)).reverse }

/-! ## Iteration -/

/-- model.hh 585–592: the included models of a model that have not been seen. -/
def newIncludes : List PItem → List Nat → List Nat × List Nat
  | [], seen => ([], seen)
  | .inc j _ :: r, seen =>
    if seen.contains j then newIncludes r seen
    else
      let (l, s) := newIncludes r (j :: seen)
      (j :: l, s)
  | .other _ :: r, seen => newIncludes r seen

/-- model.hh 568–620 `ItemIter::run`: the models whose items are visited, in order; `none` if not finished after `fuel` rounds. The
stack has its last element first, so that the included models are put on it in their order. -/
def iter (ms : List M) : Nat → List Nat → List Nat → Option (List Nat)
  | _, [], _ => some []
  | 0, _ :: _, _ => none
  | fuel + 1, c :: stack, seen =>
    match ms[c]? with
    | none => none
    | some x =>
      let (l, seen') := newIncludes x.items seen
      (iter ms fuel (l ++ stack) seen').map (c :: ·)

/-! ## Deletion -/

/-- The models owned by the items. -/
def owned : List PItem → List Nat
  | [] => []
  | .inc j true :: r => j :: owned r
  | _ :: r => owned r

/-- model.cpp 86–95 `~Model`: the models that are deleted, in order. `fuel` bounds the depth. -/
def delete (ms : List M) : Nat → Nat → List Nat
  | 0, _ => []
  | fuel + 1, k =>
    match ms[k]? with
    | none => [k]
    | some x => (owned x.items).flatMap (delete ms fuel) ++ [k]

end Incl
end MZ
