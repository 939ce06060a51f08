import Verif.Conf.Params

/-!
# C88: solver selection, default options, and parameter files
-/

namespace MZ
namespace Conf

/-! ## Selecting a solver -/

/-- `--solver` selects the solver that it should: the first of the solvers with all tags (and versions) that is the default for one of the
tags, or else the first of them. -/
theorem _root_.MZ.C88_selection (defaults : List (Str × Str)) (scs : List Solver) (rs : List Req) (hne : rs ≠ [])
    (hrs : ∀ r ∈ rs, r.Ok) (i : Nat) :
    select (populate defaults scs) (reqText rs) = some i ↔ Chosen defaults scs rs i :=
  select_iff defaults scs rs hne hrs i

/-- There is an error exactly if no solver has all that is asked for. -/
theorem _root_.MZ.C88_selection_error (defaults : List (Str × Str)) (scs : List Solver) (rs : List Req) (hne : rs ≠ [])
    (hrs : ∀ r ∈ rs, r.Ok) :
    select (populate defaults scs) (reqText rs) = none ↔ ¬ ∃ i, Candidate defaults scs rs i := by
  constructor
  · rintro h ⟨i, hi⟩
    have hno : ∀ j, ¬ Chosen defaults scs rs j := by
      intro j hj
      rw [(select_iff defaults scs rs hne hrs j).2 hj] at h
      cases h
    classical
    by_cases hp : ∃ j, Candidate defaults scs rs j ∧ Preferred defaults scs rs j
    · exact hno (Nat.find hp) ⟨(Nat.find_spec hp).1, Or.inl ⟨(Nat.find_spec hp).2, fun j h1 h2 => Nat.find_min' hp ⟨h1, h2⟩⟩⟩
    · have hc : ∃ j, Candidate defaults scs rs j := ⟨i, hi⟩
      exact hno (Nat.find hc) ⟨Nat.find_spec hc, Or.inr ⟨fun j h1 h2 => hp ⟨j, h1, h2⟩, fun j h1 => Nat.find_min' hc h1⟩⟩
  · intro h
    cases hs : select (populate defaults scs) (reqText rs) with
    | none => rfl
    | some i => exact absurd ⟨i, ((select_iff defaults scs rs hne hrs i).1 hs).1⟩ h

/-- A solver can be selected by its identifier, in whatever case it is written, if no other solver can be asked for in the same way. -/
theorem _root_.MZ.C88_by_id (defaults : List (Str × Str)) (scs : List Solver) (i : Nat) (sc : Solver) (hi : scs[i]? = some sc)
    (s : Str) (hs : lower s = lower sc.id) (hok : s ≠ [] ∧ ',' ∉ s ∧ '@' ∉ s)
    (huniq : ∀ j sc', scs[j]? = some sc' → Carries defaults sc' (lower sc.id) → j = i) :
    select (populate defaults scs) s = some i := by
  have h := (select_iff defaults scs [⟨s, []⟩] (by simp) (by
    intro r hr
    simp only [List.mem_singleton] at hr
    subst hr
    exact ⟨hok.1, hok.2.1, hok.2.2, by simp⟩) i).2
  have e : reqText [⟨s, []⟩] = s := by simp [reqText, Req.text]
  rw [e] at h
  apply h
  have hc : ∀ j, Candidate defaults scs [⟨s, []⟩] j → j = i := by
    rintro j ⟨sc', e', hk⟩
    refine huniq j sc' e' ?_
    have := (hk 0 ⟨s, []⟩ rfl).1
    rwa [hs] at this
  have h0 : Candidate defaults scs [⟨s, []⟩] i := by
    refine ⟨sc, hi, fun k r hr => ?_⟩
    cases k with
    | succ k => simp at hr
    | zero =>
      cases hr
      exact ⟨Or.inr (Or.inl hs), Or.inl rfl⟩
  refine ⟨h0, ?_⟩
  by_cases hp : Preferred defaults scs [⟨s, []⟩] i
  · exact Or.inl ⟨hp, fun j hj _ => le_of_eq (hc j hj).symm⟩
  · exact Or.inr ⟨fun j hj => by rw [hc j hj]; exact hp, fun j hj => le_of_eq (hc j hj).symm⟩

/-- The installed solvers of the examples. -/
def exSolvers : List Solver :=
  [⟨"org.gecode.gecode".toList, "Gecode".toList, "6.3".toList, ["cp".toList, "int".toList]⟩,
   ⟨"org.chuffed.chuffed".toList, "Chuffed".toList, "0.13".toList, ["cp".toList, "lcg".toList, "int".toList]⟩,
   ⟨"org.gecode.gecode".toList, "Gecode".toList, "6.2".toList, ["cp".toList, "int".toList]⟩,
   ⟨"org.minizinc.mip.coin-bc".toList, "COIN-BC".toList, "2.10".toList, ["mip".toList, "int".toList]⟩]

/-- By name, by the end of the identifier, by several tags, by a version, and by a tag with a default solver. -/
example : select (populate [] exSolvers) "Gecode".toList = some 0 ∧
    select (populate [] exSolvers) "COIN-BC".toList = some 3 ∧
    select (populate [] exSolvers) "cp,lcg".toList = some 1 ∧
    select (populate [] exSolvers) "gecode@6.2".toList = some 2 ∧
    select (populate [] exSolvers) "cp,mip".toList = none ∧
    select (populate [("cp".toList, "org.chuffed.chuffed".toList)] exSolvers) "cp".toList = some 1 := by
  decide +kernel

/-- Without `--solver`, the default solver is selected, if its identifier is written in lower case and identifies it. -/
theorem _root_.MZ.C88_default_solver_partial (defaults : List (Str × Str)) (scs : List Solver) (i : Nat) (sc : Solver)
    (hi : scs[i]? = some sc) (hd : defaults.lookup [] = some sc.id) (hl : lower sc.id = sc.id)
    (hok : sc.id ≠ [] ∧ ',' ∉ sc.id ∧ '@' ∉ sc.id)
    (huniq : ∀ j sc', scs[j]? = some sc' → Carries defaults sc' (lower sc.id) → j = i) :
    select (populate defaults scs) [] = some i := by
  have h := MZ.C88_by_id defaults scs i sc hi sc.id rfl hok huniq
  unfold select at h ⊢
  have hw : words ',' (lower sc.id) [] = [sc.id] := by
    rw [hl]
    have := words_text ',' [sc.id] (by simpa using ⟨hok.2.1, hok.1⟩)
    simpa using this
  rw [hw] at h
  have e : words ',' (lower []) [] = [] := rfl
  rw [e]
  simp only [find_lookup, (tableOk defaults scs).defs, hd]
  exact h

/-- The configuration of the example. -/
def exDefault : List (Str × Str) := [([], "org.chuffed.chuffed".toList)]

example : select (populate exDefault exSolvers) [] = some 1 ∧
    select (populate exDefault exSolvers) "default".toList = some 1 := by decide +kernel

/-- A default solver whose identifier contains upper case letters is not found: without `--solver` there is an error although the
solver is installed, and `--solver default` does not find it either. -/
theorem _root_.MZ.C88_default_solver_fails : ∃ (defaults : List (Str × Str)) (scs : List Solver) (sc : Solver),
    scs[0]? = some sc ∧ defaults.lookup [] = some sc.id ∧
    select (populate defaults scs) [] = none ∧ select (populate defaults scs) "default".toList = none ∧
    select (populate defaults scs) sc.id = some 0 := by
  refine ⟨[([], "org.minizinc.mip.HiGHS".toList)],
    [⟨"org.minizinc.mip.HiGHS".toList, "HiGHS".toList, "1.7".toList, ["mip".toList]⟩], _, rfl, rfl, ?_⟩
  decide +kernel

/-- A tag that contains an upper case letter selects no solver, although a solver has it and there is no other tag. -/
theorem _root_.MZ.C88_tag_case_fails : ∃ (scs : List Solver) (sc : Solver) (t : Str), scs[0]? = some sc ∧ t ∈ sc.tags ∧
    select (populate [] scs) t = none :=
  ⟨[⟨"org.me.s".toList, "S".toList, "1".toList, ["CP".toList]⟩], _, "CP".toList, rfl, by decide, by decide +kernel⟩

/-- A version that no solver has is ignored: `id@version` selects a solver with another version. -/
theorem _root_.MZ.C88_version_fails : ∃ (scs : List Solver) (sc : Solver), scs[0]? = some sc ∧
    sc.version ≠ "9.9".toList ∧ select (populate [] scs) "gecode@9.9".toList = some 0 :=
  ⟨exSolvers, _, rfl, by decide, by decide +kernel⟩

/-- A version that contains an upper case letter cannot be asked for: another version is selected although the version is installed. -/
theorem _root_.MZ.C88_version_case_fails : ∃ (scs : List Solver) (sc : Solver), scs[1]? = some sc ∧
    sc.version = "1.0RC".toList ∧ select (populate [] scs) "org.me.s@1.0RC".toList = some 0 :=
  ⟨[⟨"org.me.s".toList, "S".toList, "0.9".toList, []⟩, ⟨"org.me.s".toList, "S".toList, "1.0RC".toList, []⟩], _, rfl, rfl,
    by decide +kernel⟩

/-- The name of a configuration file selects the solver in this file; solvers that could be selected before keep their numbers. -/
theorem _root_.MZ.C88_configuration_file (read : Str → Option Solver) (defaults : List (Str × Str)) (scs : List Solver) (f : Str)
    (hf : f ≠ []) (sc : Solver) (hr : read (f ++ ".msc".toList) = some sc) :
    ∃ T, config read (populate defaults scs) (f ++ ".msc".toList) = some (T, scs.length) ∧
      T.solvers[scs.length]? = some sc ∧ ∀ i < scs.length, T.solvers[i]? = scs[i]? := by
  have hs := (tableOk defaults scs).solvers
  refine ⟨addConfig (populate defaults scs) sc, ?_, ?_, ?_⟩
  · unfold config
    have hl : 0 < f.length := List.length_pos_iff.2 hf
    rw [if_pos ⟨by simp; omega, by simp⟩, hr, hs]
  · simp [addConfig, hs]
  · intro i hi
    show ((populate defaults scs).solvers ++ [sc])[i]? = _
    rw [hs, List.getElem?_append_left hi]

example : (config (fun _ => some ⟨"a.b".toList, "B".toList, [], []⟩) (populate [] exSolvers) "my.msc".toList).map Prod.snd = some 4 := by
  decide +kernel

/-! ## Default options -/

/-- The tags of a configuration file are kept in their order, except that a file cannot make its solver the default one: only the tag `default` is
dropped. -/
theorem _root_.MZ.C88_tags (ts : List Str) : (loadTags ts).Sublist ts ∧ (∀ t, t ∈ loadTags ts ↔ t ∈ ts ∧ t ≠ "default".toList) ∧
    ("default".toList ∉ ts → loadTags ts = ts) := by
  refine ⟨List.filter_sublist, fun t => by simp [loadTags], fun h => ?_⟩
  rw [loadTags, List.filter_eq_self]
  intro t ht
  simp only [ne_eq, decide_eq_true_eq]
  rintro rfl
  exact h ht

example : loadTags ["cp".toList, "default".toList, "int".toList] = ["cp".toList, "int".toList] := by decide +kernel

/-- The default options of a solver are the options that the configuration files set for it, each once, in the order in which they
are first set, with the value that was set last. -/
theorem _root_.MZ.C88_default_options (entries : List (Str × Str × Str)) (id : Str) :
    defaultOptions entries id =
      ((optionNames entries id).flatMap (fun o => [o, lastValue entries id o])).filter (fun s => s ≠ []) := by
  unfold defaultOptions
  rw [options_table]
  by_cases h : entries.filter (fun e => e.1 = id) = []
  · rw [if_pos h]
    have : optionNames entries id = [] := by unfold optionNames; rw [h]; rfl
    rw [this]; rfl
  · rw [if_neg h]
    rfl

example : defaultOptions [("g".toList, "-p".toList, "4".toList), ("c".toList, "-f".toList, []), ("g".toList, "-s".toList, []),
    ("g".toList, "-p".toList, "8".toList)] "g".toList = ["-p".toList, "8".toList, "-s".toList] := by decide +kernel

/-! ## Extra flags -/

/-- Values of integer flags with a range are accepted if they are in the range. -/
theorem _root_.MZ.C88_flag_range {α} (le : α → α → Bool) (stod : Str → Option α) (a b v : Str) (lo hi x : Int) (ha : stoll a = some lo)
    (hb : stoll b = some hi) (hv : stoll v = some x) :
    validate le stod (some .int) [a, b] v = .ok (decide (lo ≤ x ∧ x ≤ hi)) := by
  unfold validate inRange
  simp only [ha, hb, hv]
  by_cases h1 : lo ≤ x
  · simp [h1]
  · simp [h1]

example : flagType "int:1:10".toList = some .int ∧ flagRange "int:1:10".toList = ["1".toList, "10".toList] ∧
    stoll "10".toList = some 10 ∧ stoll "7".toList = some 7 := by decide +kernel

/-- Values of flags with a list of choices are accepted exactly if they are among them. -/
theorem _root_.MZ.C88_flag_choice {α} (le : α → α → Bool) (stod : Str → Option α) (range : List Str) (hr : range ≠ []) (v : Str) :
    validate le stod (some .string) range v = .ok (decide (v ∈ range)) := by
  simp [validate, hr]

example : flagType "opt:none:some:all".toList = some .string ∧
    flagRange "opt:none:some:all".toList = ["none".toList, "some".toList, "all".toList] := by decide +kernel

/-- A flag type with one bound, such as `int:5`, or an unknown type, such as `integer`, leads to undefined behaviour when the flag is used;
and a text that only starts with a number is accepted as a number. -/
theorem _root_.MZ.C88_flag_fails (stod : Str → Option Unit) :
    validate (fun _ _ => true) stod (flagType "int:5".toList) (flagRange "int:5".toList) "7".toList = .ub ∧
    validate (fun _ _ => true) stod (flagType "integer".toList) (flagRange "integer".toList) "7".toList = .ub ∧
    validate (fun _ _ => true) stod (flagType "int:1:10".toList) (flagRange "int:1:10".toList) "7up".toList = .ok true := by
  have h1 : flagType "int:5".toList = some .int ∧ flagRange "int:5".toList = ["5".toList] ∧ flagType "integer".toList = none ∧
    flagType "int:1:10".toList = some .int ∧ flagRange "int:1:10".toList = ["1".toList, "10".toList] := by decide +kernel
  have h2 : stoll "7".toList = some 7 ∧ stoll "7up".toList = some 7 ∧ stoll "5".toList = some 5 ∧ stoll "1".toList = some 1 ∧
    stoll "10".toList = some 10 := by decide +kernel
  obtain ⟨a1, a2, a3, a4, a5⟩ := h1
  obtain ⟨b1, b2, b3, b4, b5⟩ := h2
  rw [a1, a2, a3, a4, a5]
  simp only [validate, inRange, b1, b2, b3, b4, b5]
  decide

/-! ## Parameter files -/

/-- The command line for an entry that is not an object. -/
def itemArgs (neg : List (Str × Str)) : Str × (Atom ⊕ List Atom) → List Str
  | (k, .inl a) => atomArgs neg k a
  | (k, .inr l) => l.flatMap (atomArgs neg k)

/-- The entry as an item. -/
def entryItem : Str × (Atom ⊕ List Atom) → Item
  | (k, .inl a) => .atom k a
  | (k, .inr l) => .arr k l

/-- The values of an entry. -/
def entryAtoms : Atom ⊕ List Atom → List Atom
  | .inl a => [a]
  | .inr l => l

theorem getVec_eq (l : List Atom) (h : ¬ ∃ a r, l = a :: a :: a :: a :: r) : getVec l = l := by
  unfold getVec
  split
  · rename_i a b c d r
    rw [if_neg]
    rintro ⟨rfl, rfl, rfl⟩
    exact h ⟨_, _, rfl⟩
  · rfl

/-- Entries without objects stand for their options, in the order of the file; options that are not allowed and values that are not
booleans, texts or numbers are errors.  Missing: arrays that start with four equal values (see `C88_repeated_values_fails`). -/
theorem _root_.MZ.C88_parameter_file_partial (addr : Nat → Str) (black : List Str) (neg : List (Str × Str))
    (es : List (Str × (Atom ⊕ List Atom))) (hc4 : ∀ k l, (k, .inr l) ∈ es → ¬ ∃ a r, l = a :: a :: a :: a :: r) :
    load addr black neg (es.map entryItem) =
      if ∃ e ∈ es, flagName e.1 ∈ black ∨ Atom.other ∈ entryAtoms e.2 then none else some (es.flatMap (itemArgs neg)) := by
  have hc : ∀ k l, (k, .inr l) ∈ es → getVec l = l := fun k l h => getVec_eq l (hc4 k l h)
  clear hc4
  induction es with
  | nil => simp [load]
  | cons e es ih =>
    have ih := ih (fun k l h => hc k l (List.mem_cons_of_mem _ h))
    rw [List.map_cons, load, ih]
    have h1 : loadItem addr black neg (entryItem e) =
        if flagName e.1 ∈ black ∨ Atom.other ∈ entryAtoms e.2 then none else some (itemArgs neg e) := by
      obtain ⟨k, a | l⟩ := e
      · show addAtom black neg k a = _
        rw [addAtom_eq]
        simp [entryAtoms, itemArgs, eq_comm]
      · show (if flagName k ∈ black then none else addAtoms black neg k (getVec l)) = _
        rw [hc k l List.mem_cons_self]
        by_cases hk : flagName k ∈ black
        · simp [hk]
        · rw [if_neg hk, addAtoms_eq black neg k hk]
          simp [hk, entryAtoms, itemArgs]
    rw [h1]
    by_cases h2 : flagName e.1 ∈ black ∨ Atom.other ∈ entryAtoms e.2
    · have h4 : ∃ e' ∈ e :: es, flagName e'.1 ∈ black ∨ Atom.other ∈ entryAtoms e'.2 := ⟨e, List.mem_cons_self, h2⟩
      rw [if_pos h2, if_pos h4]
      rfl
    · rw [if_neg h2]
      by_cases h3 : ∃ e ∈ es, flagName e.1 ∈ black ∨ Atom.other ∈ entryAtoms e.2
      · rw [if_pos h3]
        obtain ⟨e', he', h'⟩ := h3
        rw [if_pos ⟨e', List.mem_cons_of_mem _ he', h'⟩]
        rfl
      · rw [if_neg h3, if_neg]
        · rfl
        · rintro ⟨e', he', h'⟩
          rcases List.mem_cons.1 he' with rfl | he'
          · exact h2 h'
          · exact h3 ⟨e', he', h'⟩

/-- The example of the documentation. -/
example : load (fun _ => []) blacklist negated
    [.atom "solver".toList (.str "gecode".toList), .atom "intermediate".toList (.bool false), .atom "-p".toList (.num "4".toList),
     .arr "cmdline-data".toList [.str "x=1;".toList, .str "y=2;".toList], .atom "verbose".toList (.bool true)] =
    some ["--solver".toList, "gecode".toList, "--no-intermediate".toList, "-p".toList, "4".toList,
      "--cmdline-data".toList, "x=1;".toList, "--cmdline-data".toList, "y=2;".toList, "--verbose".toList] ∧
    load (fun _ => []) blacklist negated [.atom "help".toList (.bool true)] = none := by decide +kernel

/-- Equal values at the front of an array are passed only once if there are at least four of them. -/
theorem _root_.MZ.C88_repeated_values_fails : ∃ (k : Str) (l : List Atom) (neg : List (Str × Str)), ∀ addr,
    load addr [] neg [.arr k l] ≠ some (l.flatMap (atomArgs neg k)) ∧ load addr [] neg [.arr k l] = some ["--v".toList] :=
  ⟨"v".toList, [.bool true, .bool true, .bool true, .bool true], [], fun addr => by
    have : load addr [] [] [.arr "v".toList [.bool true, .bool true, .bool true, .bool true]] = some ["--v".toList] := by
      simp [load, loadItem, getVec, addAtoms, addAtom, flagName]
    rw [this]
    refine ⟨?_, rfl⟩
    decide +kernel⟩

/-- An object is passed as one text, which is split into the options of the object again when it is used.  Here the names and texts
contain no blanks, quotes or backslashes (see `C88_object_blank_fails`), and there are no arrays or objects in the object. -/
theorem _root_.MZ.C88_object_partial (addr : Nat → Str) (black : List Str) (neg : List (Str × Str)) (k : Str)
    (hk : flagName k ∉ black) (m : List (Str × Atom)) (ho : ∀ e ∈ m, e.2 ≠ .other)
    (hne : m.flatMap (fun e => atomWords e.1 e.2) ≠ [])
    (hw : ∀ w ∈ m.flatMap (fun e => atomWords e.1 e.2), w ≠ [] ∧ ∀ c ∈ w, c ≠ ' ' ∧ c ≠ '"' ∧ c ≠ '\\') :
    ∃ s, load addr black neg [.obj k (m.map (fun e => .atom e.1 e.2))] = some [flagName k, s] ∧
      CmdLine.parse s = m.flatMap (fun e => atomWords e.1 e.2) := by
  refine ⟨((m.flatMap (fun e => atomWords e.1 e.2)).intersperse [' ']).flatten, ?_, ?_⟩
  · have h1 : modelText addr (m.map (fun e => .atom e.1 e.2)) =
        some (((m.flatMap (fun e => atomWords e.1 e.2)).intersperse [' ']).flatten) := by
      rw [modelText, itemsText_atoms addr m ho]
      simp only [Option.bind_eq_bind, Option.bind_some]
      rw [if_neg, blanks _ hne]
      obtain ⟨w, ws, e⟩ := List.exists_cons_of_ne_nil hne
      rw [e]
      simp
    simp only [load, loadItem, if_neg hk, h1]
    rfl
  · exact MZ.C34_plain_words _ hne (fun w h => (hw w h).2)

example : load (fun _ => []) blacklist negated [.obj "fzn-flags".toList [.atom "-p".toList (.num "4".toList), .atom "q".toList (.bool true)]] =
    some ["--fzn-flags".toList, "-p 4 --q".toList] ∧ CmdLine.parse "-p 4 --q".toList = ["-p".toList, "4".toList, "--q".toList] := by
  constructor
  · simp [load, loadItem, modelText, itemsText, itemText, blacklist, flagName]
  · decide +kernel

/-- A text with a blank in an object becomes two arguments. -/
theorem _root_.MZ.C88_object_blank_fails : ∃ (k o v : Str), ∀ addr, ∃ s,
    load addr [] [] [.obj k [.atom o (.str v)]] = some [flagName k, s] ∧ CmdLine.parse s ≠ [flagName o, v] := by
  refine ⟨"fzn-flags".toList, "log".toList, "my file".toList, fun addr => ⟨"--log my file".toList, ?_, by decide +kernel⟩⟩
  simp [load, loadItem, modelText, itemsText, itemText, flagName]

/-- The elements of an array in an object have no influence on the text. -/
theorem _root_.MZ.C88_object_array_fails : ∃ l l' : List Atom, l ≠ l' ∧ ∀ addr black neg k o,
    load addr black neg [.obj k [.arr o l]] = load addr black neg [.obj k [.arr o l']] :=
  ⟨[.str "a".toList], [.str "b".toList], by decide, fun addr black neg k o => by
    simp [load, loadItem, modelText, itemsText, itemText, getVec]⟩

/-- An object in which everything is switched off is an error (an exception that is not caught as an error of the file). -/
theorem _root_.MZ.C88_object_false_fails (addr : Nat → Str) (k o : Str) : load addr [] [] [.obj k [.atom o (.bool false)]] = none := by
  simp [load, loadItem, modelText, itemsText, itemText]

/-! ## Replacing parameter files on the command line -/

/-- Parameter files on the command line are replaced by the arguments they stand for, at their place; and the arguments are processed in
the directory of their file. -/
theorem _root_.MZ.C88_expansion (F : Files) (d : Str) (args : List Str) (out : List (Str × Str)) (seen' : List Str)
    (h : Expands F d [] args out seen') :
    ∃ n argv, expand F n [] args [d] [] = .ok argv [d] ∧ visit argv [d] = .ok out := by
  obtain ⟨k, argv, h1, h2⟩ := expand_ok h
  refine ⟨1 + k, argv, ?_, ?_⟩
  · have := h1 1 [] [] []
    rw [List.append_nil, List.nil_append] at this
    rw [this]
    rfl
  · have := h2 [] []
    rw [List.append_nil] at this
    rw [this]
    simp [visit, prepend]

/-- With finitely many parameter files, the replacement ends, whatever the files contain. -/
theorem _root_.MZ.C88_expansion_ends (F : Files) (fs : List Str) (hfs : ∀ p, F.args p ≠ none → p ∈ fs) (args dirs : List Str) :
    ∃ n, expand F n [] args dirs [] ≠ .more :=
  ⟨_, expand_terminates F fs hfs _ [] args dirs [] (Nat.lt_succ_self _)⟩

/-- More rounds do not change the result. -/
theorem _root_.MZ.C88_expansion_result (F : Files) : ∀ (n : Nat) (done todo dirs seen : List Str),
    expand F n done todo dirs seen ≠ .more → expand F (n + 1) done todo dirs seen = expand F n done todo dirs seen
  | 0, _, _, _, _, h => absurd rfl h
  | n + 1, done, [], dirs, seen, _ => rfl
  | n + 1, done, a :: rest, dirs, seen, h => by
    have ih := MZ.C88_expansion_result F n
    rw [expand.eq_def F (n + 1 + 1)]
    rw [expand.eq_def F (n + 1)] at h ⊢
    dsimp only at h ⊢
    split_ifs at h ⊢
    · cases rest with
      | nil => rfl
      | cons f rest' =>
        dsimp only at h ⊢
        split_ifs at h ⊢
        · exact ih _ _ _ _ h
        · cases dirs with
          | nil => rfl
          | cons d ds =>
            dsimp only at h ⊢
            split_ifs at h ⊢
            · rfl
            · cases ha : F.args (F.path f d) with
              | none => rfl
              | some as =>
                rw [ha] at h
                exact ih _ _ _ _ h
    · cases rest with
      | nil => rfl
      | cons f rest' =>
        dsimp only at h ⊢
        split_ifs at h ⊢
        · exact ih _ _ _ _ h
        · cases dirs with
          | nil => rfl
          | cons d ds =>
            dsimp only at h ⊢
            split_ifs at h ⊢
            · rfl
            · cases ha : F.args (F.path f d) with
              | none => rfl
              | some as =>
                rw [ha] at h
                exact ih _ _ _ _ h
    · cases rest with
      | nil => rfl
      | cons f rest' => exact ih _ _ _ _ h
    · cases dirs with
      | nil => rfl
      | cons d ds => exact ih _ _ _ _ h
    · exact ih _ _ _ _ h
    · cases dirs with
      | nil => rfl
      | cons d ds =>
        dsimp only at h ⊢
        split_ifs at h ⊢
        · rfl
        · cases ha : F.args (F.path a d) with
          | none => rfl
          | some as =>
            rw [ha] at h
            exact ih _ _ _ _ h
    · exact ih _ _ _ _ h

/-- The files of the examples: `/p/a.mpc` contains `--data x.dzn sub/b.mpc`, `/p/sub/b.mpc` contains `-a`, and `/p/c.mpc` itself. -/
def exFiles : Files where
  args p :=
    if p = "/p/a.mpc".toList then some ["--data".toList, "x.dzn".toList, "sub/b.mpc".toList]
    else if p = "/p/sub/b.mpc".toList then some ["-a".toList]
    else if p = "/p/c.mpc".toList then some ["c.mpc".toList]
    else none
  path f d := d ++ '/' :: f
  dir p := if p = "/p/sub/b.mpc".toList then "/p/sub".toList else "/p".toList

example : Expands exFiles "/p".toList [] ["m.mzn".toList, "--param-file".toList, "a.mpc".toList, "-s".toList]
    [("/p".toList, "m.mzn".toList), ("/p".toList, "--data".toList), ("/p".toList, "x.dzn".toList), ("/p/sub".toList, "-a".toList),
     ("/p".toList, "-s".toList)] ["/p/sub/b.mpc".toList, "/p/a.mpc".toList] := by
  have hp : ∀ a, a = "m.mzn".toList ∨ a = "--data".toList ∨ a = "x.dzn".toList ∨ a = "-a".toList ∨ a = "-s".toList → Plain a := by
    rintro a (rfl | rfl | rfl | rfl | rfl) <;> (unfold Plain; decide)
  refine .plain (hp _ (by simp)) ?_
  refine Expands.file (out1 := [("/p".toList, "--data".toList), ("/p".toList, "x.dzn".toList), ("/p/sub".toList, "-a".toList)])
    (out2 := [("/p".toList, "-s".toList)]) (args := ["--data".toList, "x.dzn".toList, "sub/b.mpc".toList])
    (by decide) (by decide) (by decide) ?_ (.plain (hp _ (by simp)) (.nil _ _))
  refine .plain (hp _ (by simp)) (.plain (hp _ (by simp)) ?_)
  refine Expands.name (out1 := [("/p/sub".toList, "-a".toList)]) (out2 := []) (args := ["-a".toList])
    (by decide) (by decide) (by decide) ?_ (.nil _ _)
  exact .plain (hp _ (by simp)) (.nil _ _)

/-- A file that contains itself is an error, not an endless loop. -/
example : expand exFiles 10 [] ["c.mpc".toList] ["/p".toList] [] = .err ∧
    ∀ p, exFiles.args p ≠ none → p ∈ ["/p/a.mpc".toList, "/p/sub/b.mpc".toList, "/p/c.mpc".toList] := by
  constructor
  · decide +kernel
  · intro p h
    unfold exFiles at h
    dsimp only at h
    split_ifs at h <;> simp_all

/-- The same file given twice is an error (`Cyclic parameter configuration file`), although there is no cycle. -/
theorem _root_.MZ.C88_twice_fails : ∃ (F : Files) (f d : Str) (args : List Str), F.args (F.path f d) = some args ∧ (∀ a ∈ args, Plain a) ∧
    expand F 20 [] [f] [d] [] = .ok (pushFlag :: F.dir (F.path f d) :: args ++ [popFlag]) [d] ∧
    expand F 20 [] [f, f] [d] [] = .err := by
  refine ⟨exFiles, "sub/b.mpc".toList, "/p".toList, ["-a".toList], by decide, ?_, by decide +kernel, by decide +kernel⟩
  intro a ha
  rw [List.mem_singleton] at ha
  subst ha
  unfold Plain
  decide

/-- The value of another option is taken for a parameter file if it ends in `.mpc`: here the file that output should be written to. -/
theorem _root_.MZ.C88_value_fails : ∃ (F : Files) (d : Str),
    expand F 20 [] ["-o".toList, "sub/b.mpc".toList] [d] [] =
      .ok ["-o".toList, pushFlag, F.dir (F.path "sub/b.mpc".toList d), "-a".toList, popFlag] [d] :=
  ⟨exFiles, "/p".toList, by decide +kernel⟩

end Conf
end MZ
