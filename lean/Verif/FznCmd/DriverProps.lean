import Verif.FznCmd.Driver
import Verif.FznCmd.DriverSpec
import Verif.FznCmd.Props
/-! # All and intermediate solutions are asked for as the user wants them -/
namespace MZ
namespace FznCmd
open Options Spec

/-- What an option does to the driver's record. -/
def dApply (d : Driver) : DReq → Driver
  | .all => { d with allSat := true, inter := true }
  | .inter => { d with inter := true }
  | .noInter => { d with inter := false }
  | .allSat => { d with allSat := true }
  | .noAllSat => { d with allSat := false }
  | .other _ => d

/-- What an option does to the solver's options. -/
def oApply (o : Opts) : DReq → Opts
  | .other r => apply o r
  | _ => o

theorem driver_own (rd : Word → Option Int) (accepted : List (Word × Bool)) (std : String → Bool) (d : Driver)
    (hA : d.supportsA = std "-a") (hI : d.supportsI = std "-i") (q : DReq) (ws : List Word)
    (h : DSpelled rd accepted std q ws) (argv : List Word) (i : Nat) (k : Word) (hk : ws.head? = some k)
    (h0 : argv[i]? = some k) :
    (∃ r, q = .other r ∧ Spelled rd accepted r ws ∧ driverOption d argv i = none) ∨
    ((∀ r, q ≠ .other r) ∧ ws.length = 1 ∧ driverOption d argv i = some (dApply d q)) := by
  cases h with
  | all k' hs hm =>
    obtain rfl : k' = k := by simpa using hk
    refine .inr ⟨by simp, rfl, ?_⟩
    have hs' : (d.supportsA || d.supportsI) = true := by rw [hA, hI]; simpa using hs
    unfold driverOption
    simp only [hs', if_true]
    exact flag_hit h0 hm
  | inter k' hs hm =>
    obtain rfl : k' = k := by simpa using hk
    refine .inr ⟨by simp, rfl, ?_⟩
    have hs' : (d.supportsA || d.supportsI) = true := by rw [hA, hI]; simpa using hs
    unfold driverOption
    simp only [List.map_cons, List.map_nil, List.mem_cons, List.not_mem_nil, or_false] at hm
    simp only [hs', if_true]
    rcases hm with rfl | rfl | rfl <;> simp (decide := true) only [flag_miss h0, flag_hit h0, dApply]
  | noInter k' hm =>
    obtain rfl : k' = k := by simpa using hk
    refine .inr ⟨by simp, rfl, ?_⟩
    unfold driverOption
    simp only [List.map_cons, List.map_nil, List.mem_cons, List.not_mem_nil, or_false] at hm
    rcases hm with rfl | rfl | rfl <;> simp (decide := true) only [flag_miss h0, flag_hit h0, dApply, ite_self]
  | allSat hs =>
    obtain rfl : _ = k := by simpa using hk
    refine .inr ⟨by simp, rfl, ?_⟩
    unfold driverOption
    have hs' : d.supportsA = true := by rw [hA]; exact hs
    simp (decide := true) only [flag_miss h0, flag_hit h0, dApply, ite_self, hs', if_true]
  | noAllSat =>
    obtain rfl : _ = k := by simpa using hk
    refine .inr ⟨by simp, rfl, ?_⟩
    unfold driverOption
    simp (decide := true) only [flag_miss h0, flag_hit h0, dApply, ite_self]
  | other r k' ws hs hn =>
    obtain rfl : k' = k := by simpa using hk
    refine .inl ⟨r, rfl, hs, ?_⟩
    have hm : ∀ (l : List Word), (∀ x ∈ l, x ∈ solutionWords) → ∀ (R : Type) (a b : R), flag l argv i a b = b :=
      fun l hl R a b => flag_miss h0 fun h => hn (hl _ h)
    have m1 := hm [cs!"-a", cs!"--all", cs!"--all-solns", cs!"--all-solutions"] (by decide)
    have m2 := hm [cs!"-i", cs!"--intermediate", cs!"--intermediate-solutions"] (by decide)
    have m3 := hm [cs!"-n-i", cs!"--no-intermediate", cs!"--no-intermediate-solutions"] (by decide)
    have m4 := hm [cs!"--all-satisfaction"] (by decide)
    have m5 := hm [cs!"--disable-all-satisfaction"] (by decide)
    unfold driverOption
    simp only [m1, m2, m3, m4, m5, ite_self]

theorem dApply_sup (d : Driver) (q : DReq) :
    (dApply d q).supportsA = d.supportsA ∧ (dApply d q).supportsI = d.supportsI := by
  cases q <;> exact ⟨rfl, rfl⟩

theorem oApply_sup (o : Opts) (q : DReq) : (oApply o q).sup = o.sup ∧ (oApply o q).extra = o.extra := by
  cases q with
  | other r => exact apply_sup o r
  | _ => exact ⟨rfl, rfl⟩

theorem driver_steps (rd : Word → Option Int) (accepted : List (Word × Bool)) (std : String → Bool)
    (hro : rd (cs!"-o") = none) (hp : ∀ n, (n, true) ∈ accepted → ¬ n <+: cs!"--") :
    ∀ (ds : List DReq) (ws : List (List Word)), List.Forall₂ (DSpelled rd accepted std) ds ws →
    ∀ (d : Driver) (o : Opts), d.supportsA = std "-a" → d.supportsI = std "-i" →
    o.sup = (setAccepted {} accepted).sup → o.extra = (setAccepted {} accepted).extra →
    ∀ (pre : List Word) (fuel : Nat), ws.flatten.length ≤ fuel →
    driverAll rd (pre ++ ws.flatten) fuel pre.length d o = some (ds.foldl dApply d, ds.foldl oApply o) := by
  intro ds ws h
  induction h with
  | nil =>
    intro d o _ _ _ _ pre fuel _
    cases fuel <;> simp [driverAll]
  | @cons q w ds ws h hs ih =>
    intro d o hA hI hsup hex pre fuel hf
    obtain ⟨k, w', rfl⟩ : ∃ k w', w = k :: w' := by
      cases h <;> exact ⟨_, _, rfl⟩
    have h0 : (pre ++ ((k :: w') ++ ws.flatten))[pre.length]? = some k := by simp
    simp only [List.flatten_cons, List.length_append, List.length_cons] at hf
    obtain ⟨fuel, rfl⟩ : ∃ f, fuel = f + 1 := ⟨fuel - 1, by omega⟩
    have ih' := ih (dApply d q) (oApply o q) ((dApply_sup d q).1.trans hA) ((dApply_sup d q).2.trans hI)
      ((oApply_sup o q).1.trans hsup) ((oApply_sup o q).2.trans hex) (pre ++ (k :: w')) fuel (by omega)
    rw [List.append_assoc, List.length_append] at ih'
    rw [List.flatten_cons, driverAll, if_pos (by simp only [List.length_append, List.length_cons]; omega)]
    rcases driver_own rd accepted std d hA hI q _ h _ _ k rfl h0 with ⟨r, rfl, hr, hd⟩ | ⟨hq, hl, hd⟩
    · have h2 := (step rd accepted hro hp o hsup hex r _ hr pre ws.flatten).2
      rw [List.append_assoc] at h2
      rw [hd]
      simp only
      rw [h2]
      simp only
      rw [show pre.length + (k :: w').length - 1 + 1 = pre.length + (k :: w').length by simp [Nat.add_assoc]]
      exact ih'
    · rw [hd]
      simp only
      rw [hl] at ih'
      have ho : oApply o q = o := by
        cases q with
        | other r => exact absurd rfl (hq r)
        | _ => rfl
      rw [List.foldl_cons, List.foldl_cons, ← ih', ho]

theorem fold_others : ∀ (ds : List DReq) (o : Opts), ds.foldl oApply o = (others ds).foldl apply o
  | [], _ => rfl
  | .other r :: ds, o => by rw [List.foldl_cons, fold_others ds]; rfl
  | .all :: ds, o => fold_others ds o
  | .inter :: ds, o => fold_others ds o
  | .noInter :: ds, o => fold_others ds o
  | .allSat :: ds, o => fold_others ds o
  | .noAllSat :: ds, o => fold_others ds o

theorem fold_flag (φ : Driver → Bool) (f : DReq → Option Bool) (h : ∀ d q, φ (dApply d q) = (f q).getD (φ d)) :
    ∀ (ds : List DReq) (d : Driver), φ (ds.foldl dApply d) = ((ds.filterMap f).getLast?).getD (φ d)
  | [], d => rfl
  | q :: ds, d => by
    rw [List.foldl_cons, fold_flag φ f h ds, h]
    cases hf : f q with
    | none => simp [hf]
    | some a =>
      rw [List.filterMap_cons_some hf]
      cases hq : (ds.filterMap f).getLast? with
      | none => rw [List.getLast?_eq_none_iff.1 hq]; rfl
      | some b => rw [List.getLast?_cons, hq]; rfl

theorem fold_dsup : ∀ (ds : List DReq) (d : Driver),
    (ds.foldl dApply d).supportsA = d.supportsA ∧ (ds.foldl dApply d).supportsI = d.supportsI
  | [], _ => ⟨rfl, rfl⟩
  | q :: ds, d => by
    rw [List.foldl_cons]
    exact ⟨(fold_dsup ds _).1.trans (dApply_sup d q).1, (fold_dsup ds _).2.trans (dApply_sup d q).2⟩

theorem give_a (rd : Word → Option Int) (o : Opts) : give rd o (cs!"-a") = apply o .all := by
  unfold give
  rw [step_all rd o [cs!"-a"] 0 (cs!"-a") rfl (by decide)]

theorem give_i (rd : Word → Option Int) (o : Opts) : give rd o (cs!"-i") = apply o .intermediate := by
  unfold give
  rw [step_intermediate rd o [cs!"-i"] 0 (cs!"-i") rfl (by decide)]

/-- **C96** for the number of solutions (partly, as `C96_command_line_partial`). Whatever the user says about all and
intermediate solutions, among other options for the solver and in any spelling, the last word counts: for a
satisfaction problem the solver is asked for all solutions if that is what the user wants and it declares `-a`; for an
optimisation problem it is asked for intermediate solutions by `-i`, or by `-a` if it does not declare `-i`. Nothing
else about the number of solutions is added to its command line. -/
theorem _root_.MZ.C96_solutions_partial (rd : W → Option Int) (sh : Int → W) (accepted : List (W × Bool))
    (std : String → Bool) (hstd : ∀ s, std s = true ↔ ∃ b, (s.toList, b) ∈ accepted)
    (hro : rd "-o".toList = none) (hp : ∀ n, (n, true) ∈ accepted → ¬ n <+: "--".toList)
    (ds : List DReq) (ws : List (List W)) (hs : List.Forall₂ (DSpelled rd accepted std) ds ws)
    (hn : ∀ n, Req.numOptimal n ∈ others ds → n = 0 ∨ n = 1) (he : exe (others ds) ≠ [])
    (isSat : Bool) (fzn pth : W) :
    run rd sh accepted ws.flatten isSat fzn pth =
      some (expected std CmdLine.parse sh (others ds ++ solutionReq std ds isSat) (isSat = true) fzn pth,
        stopAfter std (others ds)) := by
  have hA : (accepted.any fun f => f.1 == cs!"-a") = std "-a" := by
    rw [Bool.eq_iff_iff, hstd]
    simp
  have hI : (accepted.any fun f => f.1 == cs!"-i") = std "-i" := by
    rw [Bool.eq_iff_iff, hstd]
    simp
  have h := driver_steps rd accepted std hro hp ds ws hs
    { supportsA := accepted.any (fun f => f.1 == cs!"-a"), supportsI := accepted.any (fun f => f.1 == cs!"-i") }
    (setAccepted {} accepted) hA hI rfl rfl [] ws.flatten.length (Nat.le_refl _)
  rw [List.nil_append, List.length_nil] at h
  unfold run
  rw [h]
  simp only
  have f1 := fold_flag (·.allSat)
    (fun | .all => some true | .allSat => some true | .noAllSat => some false | _ => none)
    (by intro d q; cases q <;> rfl) ds
    { supportsA := accepted.any (fun f => f.1 == cs!"-a"), supportsI := accepted.any (fun f => f.1 == cs!"-i") }
  have f2 := fold_flag (·.inter)
    (fun | .all => some true | .inter => some true | .noInter => some false | _ => none)
    (by intro d q; cases q <;> rfl) ds
    { supportsA := accepted.any (fun f => f.1 == cs!"-a"), supportsI := accepted.any (fun f => f.1 == cs!"-i") }
  have f3 := fold_dsup ds
    { supportsA := accepted.any (fun f => f.1 == cs!"-a"), supportsI := accepted.any (fun f => f.1 == cs!"-i") }
  generalize ds.foldl dApply _ = d at *
  have g1 : d.allSat = wantsAll ds := f1
  have g2 : d.inter = wantsInter ds := f2
  have g3 : d.supportsA = std "-a" := f3.1.trans hA
  have g4 : d.supportsI = std "-i" := f3.2.trans hI
  have hfin : finish rd d (ds.foldl oApply (setAccepted {} accepted)) isSat =
      (others ds ++ solutionReq std ds isSat).foldl apply (setAccepted {} accepted) := by
    rw [fold_others, List.foldl_append]
    unfold finish solutionReq
    rw [g1, g2, g3, g4]
    cases isSat <;> cases wantsAll ds <;> cases wantsInter ds <;> cases std "-a" <;> cases std "-i" <;>
      simp [give_a, give_i]
  rw [hfin]
  have hlast : ∀ (α : Type) (f : Req → Option α) (x : α), f .all = none → f .intermediate = none →
      last f x (others ds ++ solutionReq std ds isSat) = last f x (others ds) := by
    intro α f x h1 h2
    unfold last solutionReq
    rw [List.filterMap_append]
    cases isSat <;> cases wantsAll ds <;> cases wantsInter ds <;> cases std "-a" <;> cases std "-i" <;>
      simp [h1, h2]
  have hst : stopAfter std (others ds ++ solutionReq std ds isSat) = stopAfter std (others ds) := by
    unfold stopAfter limit cleanup
    rw [hlast _ _ _ rfl rfl, hlast _ _ _ rfl rfl]
  rw [← hst]
  refine solve_fold sh accepted std hstd _ ?_ ?_ isSat fzn pth
  · intro n hm
    rcases List.mem_append.1 hm with hm | hm
    · exact hn n hm
    · unfold solutionReq at hm
      split at hm <;> split at hm <;> (try split at hm) <;> simp at hm
  · unfold exe at he ⊢
    rw [hlast _ _ _ rfl rfl]
    exact he

/-- Wanting all solutions and no intermediate ones: `-a` for satisfaction, nothing for optimisation. -/
example : run digits (fun n => (toString n).toList) [("-a".toList, false), ("-i".toList, false)]
    (["--fzn-cmd", "slv", "--all-solns", "-n-i"].map String.toList) true "m.fzn".toList [] =
    some (["slv", "-a", "m.fzn"].map String.toList, 0) ∧
    run digits (fun n => (toString n).toList) [("-a".toList, false), ("-i".toList, false)]
    (["--fzn-cmd", "slv", "--all-solns", "-n-i"].map String.toList) false "m.fzn".toList [] =
    some (["slv", "m.fzn"].map String.toList, 0) := by
  decide +kernel

example (std : String → Bool) (h : std "-a" = true) : List.Forall₂ (DSpelled digits [("-a".toList, false)] std)
    [.other (.solver "slv".toList), .all, .noInter]
    [["--fzn-cmd".toList, "slv".toList], ["--all-solns".toList], ["-n-i".toList]] :=
  .cons (.other _ _ _ (.solver _ _ (by decide)) (by decide)) (.cons (.all _ (.inl h) (by decide))
    (.cons (.noInter _ (by decide)) .nil))

end FznCmd
end MZ
