import Verif.Incl.Own
/-!
# C70: included files
-/
namespace MZ
namespace Incl

/-- If nothing is said against it, `parse` finishes: either all files that are included, directly or not, by the first file or the
other files can be opened and the first file does not include itself, and each of these files is loaded as one model with its items in
order, each include item referring to the model of the file; or the first file includes itself; or a file cannot be opened. The files
are in a finite set `U`, none has a companion `….deprecated.mzn`, the other files and libraries are different and none includes the
first file. -/
theorem _root_.MZ.C70_load (fs : FS) (paths : List String) (root : String) (libs U : List String) (hn : NoCompanion fs paths)
    (hd : libs.Nodup) (hU : ∀ g ∈ root :: libs, ∀ f, Reaches fs paths g f → f ∈ U) (hl : ∀ g ∈ libs, ¬ Reaches fs paths g root)
    {fuel : Nat} (hf : U.length + 2 ≤ fuel) :
    ∃ o, run fs paths fuel (initial root libs) = some o ∧
      match o with
      | .more _ => False
      | .done st => (st.models.map (·.file)).Nodup ∧
          (∀ f, f ∈ st.models.map (·.file) ↔ ∃ g ∈ root :: libs, Reaches fs paths g f) ∧
          (∀ (k : Nat) (x : M), st.models[k]? = some x → ∃ its,
            x.items = (if k = 0 then (List.range libs.length).map fun i => .inc (i + 1) true else []) ++ its ∧
            Matches fs paths st.models x.file (fs.content x.file) its) ∧
          (∀ g ∈ root :: libs, ∀ f, Reaches fs paths g f → Openable fs f) ∧
          ¬ Relation.TransGen (Includes fs paths) root root
      | .cyclic => Relation.TransGen (Includes fs paths) root root
      | .missing => ∃ g ∈ root :: libs, ∃ f, Reaches fs paths g f ∧ ¬ Openable fs f := by
  have hi := inv_initial fs paths root hd
  obtain ⟨o, h1, h2⟩ := run_spec hn hU fuel _ hi (by
    have : (initial root libs).models.length - (initial root libs).files.length = 0 := by simp [initial]
    omega)
  refine ⟨o, h1, ?_⟩
  cases o with
  | more st => exact h2
  | cyclic => exact h2
  | missing => exact h2
  | done st =>
    obtain ⟨h3, h4⟩ := h2
    refine ⟨all_nodup h3 h4 hl, ?_, ?_, ?_, no_cycle h3 h4 hl⟩
    · intro f
      rw [List.mem_map]
      constructor
      · rintro ⟨x, hx, e⟩
        obtain ⟨k, hk⟩ := List.mem_iff_getElem?.mp hx
        rw [← e]
        exact reached h3 k x hk
      · rintro ⟨g, hg, hr⟩
        obtain ⟨k, x, g1, g2⟩ := all_loaded h3 h4 hg hr
        exact ⟨x, List.mem_of_getElem? g1, g2⟩
    · intro k x hx
      exact h3.fin k x hx (by simp [h4]) (by simp)
    · intro g hg f hr
      obtain ⟨k, x, g1, g2⟩ := all_loaded h3 h4 hg hr
      rw [← g2]
      exact (h3.ok k x g1 (by simp [h4])).1

/-- After any number of rounds, with or without companions: the deletion of the first model deletes each model exactly once. -/
theorem _root_.MZ.C70_delete (fs : FS) (paths : List String) (root : String) (libs : List String) {st : St}
    (hs : Steps fs paths (initial root libs) st) : (delete st.models st.models.length 0).Perm (List.range st.models.length) :=
  delete_perm (own_steps (own_initial root libs) hs) (Nat.le_refl _)

/-- The iteration over the items of the loaded model visits each model exactly once. -/
theorem _root_.MZ.C70_iterate (fs : FS) (paths : List String) (root : String) (libs : List String) {fuel : Nat} {st : St}
    (hr : run fs paths fuel (initial root libs) = some (.done st)) :
    ∃ l, iter st.models st.models.length [0] [0] = some l ∧ l.Perm (List.range st.models.length) :=
  iter_perm (own_steps (own_initial root libs) (run_done fuel hr).1) (Nat.le_refl _)

/-- A relative name is the first file found in the include paths, in their order, and then in the directory of the including file;
if there is none, the name stays as it is. -/
theorem _root_.MZ.C70_resolve (fs : FS) (paths : List String) (filename f : String) (hf : isAbsolute f = false) (hn : filename ≠ "") :
    canon fs paths filename f = (((paths ++ [if fs.dirName filename = "" then "." else fs.dirName filename]).map
      fun d => fs.real (d ++ "/" ++ f)).find? fs.isFile).getD f := by
  have h : ∀ ps : List String, inPaths fs f ps = (ps.map fun d => fs.real (d ++ "/" ++ f)).find? fs.isFile := by
    intro ps
    induction ps with
    | nil => rfl
    | cons p ps ih =>
      simp only [inPaths, List.map_cons, List.find?_cons, ih]
      cases fs.isFile (fs.real (p ++ "/" ++ f)) <;> rfl
  unfold canon
  simp only [hf, Bool.false_or, beq_iff_eq, hn, if_false, h, List.map_append, List.find?_append, List.map_cons, List.map_nil,
    List.find?_cons, List.find?_nil]
  cases (paths.map fun d => fs.real (d ++ "/" ++ f)).find? fs.isFile with
  | some n => simp
  | none =>
    simp only [Option.none_or]
    cases fs.isFile (fs.real ((if fs.dirName filename = "" then "." else fs.dirName filename) ++ "/" ++ f)) <;> rfl

/-- An absolute name stays as it is, and so do names if there is no including file. -/
theorem _root_.MZ.C70_resolve_absolute (fs : FS) (paths : List String) (filename f : String) (h : isAbsolute f = true ∨ filename = "") :
    canon fs paths filename f = f := by
  unfold canon
  rcases h with h | h <;> simp [h]

/-! ## Examples -/

/-- A file system with the files given. -/
def files (l : List (String × List Src)) : FS :=
  { real := fun s => if s = "/a/../a/b.mzn" then "/a/b.mzn" else s
    isFile := fun s => l.any (·.1 == s)
    dirName := fun _ => "/a"
    baseName := fun s => if s = "/a/b.mzn" then "b" else "x"
    content := fun s => ((l.find? (·.1 == s)).map (·.2)).getD [] }

/-- Two files that include each other and a library included by both, in the include path. -/
def fsDiamond : FS := files [("/a/r.mzn", [.inc "b.mzn", .other 1, .inc "c.mzn"]), ("/a/b.mzn", [.inc "c.mzn", .other 2]),
  ("/a/c.mzn", [.inc "l.mzn", .inc "b.mzn", .other 3]), ("/s/l.mzn", [.other 4])]

/-- The hypotheses of `C70_load` and the outcome. -/
example : run fsDiamond ["/s"] 6 (initial "/a/r.mzn" ["/s/l.mzn"]) = some (.done
    { models := [⟨"/a/r.mzn", none, [.inc 1 true, .inc 2 true, .other 1, .inc 3 true]⟩, ⟨"/s/l.mzn", none, [.other 4]⟩,
        ⟨"/a/b.mzn", some 0, [.inc 3 false, .other 2]⟩, ⟨"/a/c.mzn", some 0, [.inc 1 false, .inc 2 false, .other 3]⟩]
      files := [], seen := [("/a/c.mzn", 3), ("/a/b.mzn", 2), ("/s/l.mzn", 1)] }) := by decide +kernel

/-- The finite set of files for the example. -/
theorem diamond_closed : ∀ g ∈ ["/a/r.mzn", "/s/l.mzn"], ∀ f, Reaches fsDiamond ["/s"] g f →
    f ∈ ["/a/r.mzn", "/a/b.mzn", "/a/c.mzn", "/s/l.mzn"] := by
  intro g hg f hr
  have hstep : ∀ a ∈ ["/a/r.mzn", "/a/b.mzn", "/a/c.mzn", "/s/l.mzn"], ∀ s ∈ fsDiamond.content a, ∀ f, s = .inc f →
      canon fsDiamond ["/s"] a f ∈ ["/a/r.mzn", "/a/b.mzn", "/a/c.mzn", "/s/l.mzn"] := by
    have h0 : ∀ a ∈ ["/a/r.mzn", "/a/b.mzn", "/a/c.mzn", "/s/l.mzn"], ∀ s ∈ fsDiamond.content a,
        (match s with | .inc f => decide (canon fsDiamond ["/s"] a f ∈ ["/a/r.mzn", "/a/b.mzn", "/a/c.mzn", "/s/l.mzn"]) | _ => true) = true := by
      decide +kernel
    intro a ha s hs f e
    have := h0 a ha s hs
    subst e
    exact of_decide_eq_true this
  induction hr with
  | refl => simp at hg ⊢; rcases hg with e | e <;> subst e <;> decide
  | tail _ hi ih =>
    obtain ⟨f, h1, h2⟩ := hi
    rw [← h2]
    exact hstep _ ih _ h1 f rfl

/-- A companion is loaded twice into its model, so that its items are there twice. -/
theorem _root_.MZ.C70_companion_fails :
    run (files [("/a/b.mzn", [.other 1]), ("/s/b.deprecated.mzn", [.other 2])]) ["/s"] 9 (initial "/a/b.mzn" []) = some (.done
      { models := [⟨"/a/b.mzn", none, [.inc 1 true, .other 1]⟩, ⟨"/s/b.deprecated.mzn", none, [.other 2, .other 2]⟩]
        files := [], seen := [("/s/b.deprecated.mzn", 1)] }) := by decide +kernel

/-- A file named by two absolute names is loaded twice, since an absolute name is not made canonical. -/
theorem _root_.MZ.C70_alias_fails :
    (files []).real "/a/../a/b.mzn" = "/a/b.mzn" ∧
    run (files [("/a/r.mzn", [.inc "/a/../a/b.mzn", .inc "b.mzn"]), ("/a/b.mzn", [.other 1]), ("/a/../a/b.mzn", [.other 1])]) [] 9
      (initial "/a/r.mzn" []) = some (.done
      { models := [⟨"/a/r.mzn", none, [.inc 1 true, .inc 2 true]⟩, ⟨"/a/../a/b.mzn", some 0, [.other 1]⟩, ⟨"/a/b.mzn", some 0, [.other 1]⟩]
        files := [], seen := [("/a/b.mzn", 2), ("/a/../a/b.mzn", 1)] }) := by decide +kernel

/-- The first file is loaded again if another file on the command line includes it. -/
theorem _root_.MZ.C70_root_fails :
    run (files [("/a/r.mzn", [.other 1]), ("/a/b.mzn", [.inc "r.mzn"])]) [] 9 (initial "/a/r.mzn" ["/a/b.mzn"]) = some (.done
      { models := [⟨"/a/r.mzn", none, [.inc 1 true, .other 1]⟩, ⟨"/a/b.mzn", none, [.inc 2 true]⟩, ⟨"/a/r.mzn", some 1, [.other 1]⟩]
        files := [], seen := [("/a/r.mzn", 2), ("/a/b.mzn", 1)] }) := by decide +kernel

/-- A cycle is an error only if it goes through the first file. -/
theorem _root_.MZ.C70_cycle_fails :
    run (files [("/a/r.mzn", [.inc "b.mzn"]), ("/a/b.mzn", [.inc "r.mzn"])]) [] 9 (initial "/a/r.mzn" []) = some .cyclic ∧
    run (files [("/a/r.mzn", [.inc "b.mzn"]), ("/a/b.mzn", [.inc "c.mzn"]), ("/a/c.mzn", [.inc "b.mzn"])]) [] 9 (initial "/a/r.mzn" []) =
      some (.done
      { models := [⟨"/a/r.mzn", none, [.inc 1 true]⟩, ⟨"/a/b.mzn", some 0, [.inc 2 true]⟩, ⟨"/a/c.mzn", some 1, [.inc 1 false]⟩]
        files := [], seen := [("/a/c.mzn", 2), ("/a/b.mzn", 1)] }) := by decide +kernel

/-- A missing file. -/
example : run (files [("/a/r.mzn", [.inc "b.mzn"])]) [] 9 (initial "/a/r.mzn" []) = some .missing := by decide +kernel

/-- The iteration and the deletion in the example: the models in the order in which they are visited and deleted. -/
example : iter [⟨"/a/r.mzn", none, [.inc 1 true, .inc 2 true, .other 1, .inc 3 true]⟩, ⟨"/s/l.mzn", none, [.other 4]⟩,
    ⟨"/a/b.mzn", some 0, [.inc 3 false, .other 2]⟩, ⟨"/a/c.mzn", some 0, [.inc 1 false, .inc 2 false, .other 3]⟩] 4 [0] [0] =
    some [0, 1, 2, 3] ∧
  delete [⟨"/a/r.mzn", none, [.inc 1 true, .inc 2 true, .other 1, .inc 3 true]⟩, ⟨"/s/l.mzn", none, [.other 4]⟩,
    ⟨"/a/b.mzn", some 0, [.inc 3 false, .other 2]⟩, ⟨"/a/c.mzn", some 0, [.inc 1 false, .inc 2 false, .other 3]⟩] 4 0 = [1, 2, 3, 0] := by
  decide

end Incl
end MZ
