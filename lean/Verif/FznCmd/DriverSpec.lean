import Verif.FznCmd.Spec
/-! # Specification: how many solutions to show -/
namespace MZ
namespace FznCmd
namespace Spec

/-- What the user asks for: all solutions, intermediate solutions, not the latter, all solutions of satisfaction
problems, not those, or something else for the solver. -/
inductive DReq where
  | all | inter | noInter | allSat | noAllSat | other (r : Req)

/-- The words about the number of solutions. -/
def solutionWords : List W := ["-a", "--all", "--all-solns", "--all-solutions", "-i", "--intermediate",
  "--intermediate-solutions", "-n-i", "--no-intermediate", "--no-intermediate-solutions", "--all-satisfaction",
  "--disable-all-satisfaction"].map String.toList

/-- The words that ask for it, given to a solver that declares `-a` or not and `-i` or not. -/
inductive DSpelled (rd : W → Option Int) (accepted : List (W × Bool)) (std : String → Bool) : DReq → List W → Prop
  | all (k : W) : (std "-a" ∨ std "-i") →
      k ∈ ["-a", "--all", "--all-solns", "--all-solutions"].map String.toList → DSpelled rd accepted std .all [k]
  | inter (k : W) : (std "-a" ∨ std "-i") →
      k ∈ ["-i", "--intermediate", "--intermediate-solutions"].map String.toList →
      DSpelled rd accepted std .inter [k]
  | noInter (k : W) : k ∈ ["-n-i", "--no-intermediate", "--no-intermediate-solutions"].map String.toList →
      DSpelled rd accepted std .noInter [k]
  | allSat : std "-a" → DSpelled rd accepted std .allSat ["--all-satisfaction".toList]
  | noAllSat : DSpelled rd accepted std .noAllSat ["--disable-all-satisfaction".toList]
  | other (r : Req) (k : W) (ws : List W) : Spelled rd accepted r (k :: ws) → k ∉ solutionWords →
      DSpelled rd accepted std (.other r) (k :: ws)

/-- The last word on showing all solutions of satisfaction problems. -/
def wantsAll (ds : List DReq) : Bool :=
  ((ds.filterMap fun | .all => some true | .allSat => some true | .noAllSat => some false | _ => none).getLast?).getD
    false

/-- The last word on showing intermediate solutions of optimisation problems. -/
def wantsInter (ds : List DReq) : Bool :=
  ((ds.filterMap fun | .all => some true | .inter => some true | .noInter => some false | _ => none).getLast?).getD
    false

/-- The requests for the solver. -/
def others (ds : List DReq) : List Req := ds.filterMap fun | .other r => some r | _ => none

/-- What the solver is asked about the number of solutions: `-a` for satisfaction problems if it can, and `-i` for
optimisation problems, or `-a` if it has no `-i`. -/
def solutionReq (std : String → Bool) (ds : List DReq) (isSat : Bool) : List Req :=
  if isSat then (if wantsAll ds ∧ std "-a" then [.all] else [])
  else (if wantsInter ds then (if std "-i" then [.intermediate] else [.all]) else [])

end Spec
end FznCmd
end MZ
