import Verif.NL.Spec
import Mathlib.Tactic.Linarith
import Mathlib.Tactic.Ring
import Mathlib.Tactic.LinearCombination
import Mathlib.Tactic.FieldSimp
import Mathlib.Tactic.Push

/-!
# Phase 1 keeps the meaning of every constraint
-/

namespace MZ.NL

variable {K : Type} [Field K] [LinearOrder K] [IsStrictOrderedRing K] [FloorRing K]

/-- A bound allows a value. -/
def Bound.allows : Bound K → K → Prop
  | .lbub l u, x => l ≤ x ∧ x ≤ u
  | .ub u, x => x ≤ u
  | .lb l, x => l ≤ x
  | .free, _ => True
  | .eq v, x => x = v

/-- One token, evaluated with names instead of positions. -/
def evalT (F : Funs K) (s : String → K) (t : Tok K) (st : Option (List K)) : Option (List K) :=
  st.bind fun vs =>
    match t with
    | .n x => some (x :: vs)
    | .v n => some (s n :: vs)
    | .o o =>
      if isOp1 o then
        match vs with
        | x :: r => (nlOp1 F o x).map (· :: r)
        | [] => none
      else
        match vs with
        | x :: y :: r => (nlOp2 F o x y).map (· :: r)
        | _ => none
    | .mo o n => if vs.length < n then none else (nlOpN o (vs.take n)).map (· :: vs.drop n)

/-- The value of a graph, with names. -/
def evalG (F : Funs K) (s : String → K) (g : List (Tok K)) : Option K :=
  match g.foldr (evalT F s) (some []) with
  | some [v] => some v
  | _ => none

/-- The value of a jacobian. -/
def jacVal (s : String → K) (js : List (String × K)) : K := (js.map fun e => e.2 * s e.1).sum

/-- An algebraic constraint holds. -/
def Alg.holds (F : Funs K) (s : String → K) (a : Alg K) : Prop :=
  ∃ v, evalG F s (if a.graph.isEmpty then [Tok.n 0] else a.graph) = some v ∧
    a.range.allows (v + jacVal s a.jacobian)

/-- A logical constraint holds. -/
def logHolds (F : Funs K) (s : String → K) (g : List (Tok K)) : Prop :=
  ∃ v, evalG F s g = some v ∧ v ≠ 0

/-- The bounds hold. -/
def varsOK (s : String → K) (vs : List (Var K)) : Prop := ∀ v ∈ vs, v.bound.allows (s v.name)

/-- The collected problem holds. -/
def File.sat (F : Funs K) (f : File K) (s : String → K) : Prop :=
  varsOK s f.vars ∧ (∀ a ∈ f.cons, a.holds F s) ∧ ∀ g ∈ f.logical, logHolds F s g

/-! ## Bounds -/

theorem makeBounded_allows (l u x : K) : (makeBounded l u).allows x ↔ l ≤ x ∧ x ≤ u := by
  unfold makeBounded
  split_ifs with h
  · subst h
    simp only [Bound.allows]
    constructor
    · rintro rfl; exact ⟨le_refl _, le_refl _⟩
    · rintro ⟨h1, h2⟩; exact le_antisymm h2 h1
  · rfl

theorem updateLB_allows {b b' : Bound K} {k x : K} (h : updateLB b k = some b') :
    b'.allows x ↔ b.allows x ∧ k ≤ x := by
  cases b with
  | lbub l u =>
    simp only [updateLB, Option.some.injEq] at h; subst h
    simp only [Bound.allows]
    split_ifs with hk
    · exact ⟨fun h => ⟨⟨hk.le.trans h.1, h.2⟩, h.1⟩, fun h => ⟨h.2, h.1.2⟩⟩
    · push Not at hk
      exact ⟨fun h => ⟨h, hk.trans h.1⟩, fun h => h.1⟩
  | ub u =>
    simp only [updateLB, Option.some.injEq] at h; subst h
    simp only [Bound.allows]; exact and_comm
  | lb l =>
    simp only [updateLB, Option.some.injEq] at h; subst h
    simp only [Bound.allows]
    split_ifs with hk
    · exact ⟨fun h => ⟨hk.le.trans h, h⟩, fun h => h.2⟩
    · push Not at hk
      exact ⟨fun h => ⟨h, hk.trans h⟩, fun h => h.1⟩
  | free =>
    simp only [updateLB, Option.some.injEq] at h; subst h
    simp only [Bound.allows, true_and]
  | eq v => simp [updateLB] at h

theorem updateUB_allows {b b' : Bound K} {k x : K} (h : updateUB b k = some b') :
    b'.allows x ↔ b.allows x ∧ x ≤ k := by
  cases b with
  | lbub l u =>
    simp only [updateUB, Option.some.injEq] at h; subst h
    simp only [Bound.allows]
    split_ifs with hk
    · exact ⟨fun h => ⟨⟨h.1, h.2.trans hk.le⟩, h.2⟩, fun h => ⟨h.1.1, h.2⟩⟩
    · push Not at hk
      exact ⟨fun h => ⟨h, h.2.trans hk⟩, fun h => h.1⟩
  | ub u =>
    simp only [updateUB, Option.some.injEq] at h; subst h
    simp only [Bound.allows]
    split_ifs with hk
    · exact ⟨fun h => ⟨h.trans hk.le, h⟩, fun h => h.2⟩
    · push Not at hk
      exact ⟨fun h => ⟨h, h.trans hk⟩, fun h => h.1⟩
  | lb l =>
    simp only [updateUB, Option.some.injEq] at h; subst h
    simp only [Bound.allows]
  | free =>
    simp only [updateUB, Option.some.injEq] at h; subst h
    simp only [Bound.allows, true_and]
  | eq v => simp [updateUB] at h

theorem updateEq_of (b : Bound K) {k x : K} (h : b.allows x) (hx : x = k) : (updateEq b k).allows x := by
  cases b <;> simp_all [updateEq, Bound.allows]

theorem updateEq_allows (b : Bound K) {k x : K} (hk : b.allows k) :
    (updateEq b k).allows x ↔ b.allows x ∧ x = k := by
  cases b with
  | eq v =>
    simp only [Bound.allows] at hk; subst hk
    simp [updateEq, Bound.allows]
  | _ => exact ⟨fun h => by
            simp only [updateEq, Bound.allows] at h; subst h; exact ⟨hk, rfl⟩,
          fun h => by simp only [updateEq, Bound.allows]; exact h.2⟩

theorem onBound_sat {upd : Bound K → Option (Bound K)} {vs vs' : List (Var K)} {n : String}
    (h : onBound upd vs n = some vs') (s : String → K) (R : Prop)
    (hu : ∀ v ∈ vs, v.name = n → ∀ b', upd v.bound = some b' →
      (b'.allows (s n) ↔ v.bound.allows (s n) ∧ R)) :
    varsOK s vs' ↔ varsOK s vs ∧ R := by
  induction vs generalizing vs' with
  | nil => simp [onBound] at h
  | cons v vs ih =>
    simp only [onBound] at h
    split_ifs at h with hn
    · cases hb : upd v.bound with
      | none => simp [hb] at h
      | some b' =>
        simp only [hb, Option.map_some, Option.some.injEq] at h
        subst h
        have := hu v (by simp) hn b' hb
        simp only [varsOK, List.forall_mem_cons, hn]
        rw [this]; tauto
    · cases hr : onBound upd vs n with
      | none => simp [hr] at h
      | some vs'' =>
        simp only [hr, Option.map_some, Option.some.injEq] at h
        subst h
        have := ih hr (fun w hw => hu w (by simp [hw]))
        simp only [varsOK, List.forall_mem_cons] at this ⊢
        rw [this]; tauto

theorem onBound_imp {upd : Bound K → Option (Bound K)} {vs vs' : List (Var K)} {n : String}
    (h : onBound upd vs n = some vs') (s : String → K)
    (hu : ∀ v ∈ vs, v.name = n → ∀ b', upd v.bound = some b' →
      v.bound.allows (s n) → b'.allows (s n)) (hs : varsOK s vs) : varsOK s vs' := by
  induction vs generalizing vs' with
  | nil => simp [onBound] at h
  | cons v vs ih =>
    simp only [varsOK, List.forall_mem_cons] at hs
    simp only [onBound] at h
    split_ifs at h with hn
    · cases hb : upd v.bound with
      | none => simp [hb] at h
      | some b' =>
        simp only [hb, Option.map_some, Option.some.injEq] at h
        subst h
        simp only [varsOK, List.forall_mem_cons]
        refine ⟨?_, hs.2⟩
        rw [hn]; exact hu v (by simp) hn b' hb (hn ▸ hs.1)
    · cases hr : onBound upd vs n with
      | none => simp [hr] at h
      | some vs'' =>
        simp only [hr, Option.map_some, Option.some.injEq] at h
        subst h
        simp only [varsOK, List.forall_mem_cons]
        exact ⟨hs.1, ih hr (fun w hw => hu w (by simp [hw])) hs.2⟩

/-- Two lists of variables agree but for the counts. -/
theorem bumpVar_bounds {vs vs' : List (Var K)} {n : String} (h : bumpVar vs n = some vs') :
    vs'.map (fun v => (v.name, v.isInteger, v.toReport, v.bound)) =
      vs.map (fun v => (v.name, v.isInteger, v.toReport, v.bound)) := by
  induction vs generalizing vs' with
  | nil => simp [bumpVar] at h
  | cons v vs ih =>
    simp only [bumpVar] at h
    split_ifs at h
    · simp only [Option.some.injEq] at h; subst h; simp
    · cases hr : bumpVar vs n with
      | none => simp [hr] at h
      | some vs'' =>
        simp only [hr, Option.map_some, Option.some.injEq] at h
        subst h; simp [ih hr]

theorem bumpVars_bounds {ns : List String} {vs vs' : List (Var K)} (h : bumpVars vs ns = some vs') :
    vs'.map (fun v => (v.name, v.isInteger, v.toReport, v.bound)) =
      vs.map (fun v => (v.name, v.isInteger, v.toReport, v.bound)) := by
  induction ns generalizing vs with
  | nil => simp only [bumpVars, Option.some.injEq] at h; rw [h]
  | cons n ns ih =>
    simp only [bumpVars, Option.bind_eq_some_iff] at h
    obtain ⟨vs1, h1, h2⟩ := h
    rw [ih h2, bumpVar_bounds h1]

theorem varsOK_congr {vs vs' : List (Var K)}
    (h : vs'.map (fun v => (v.name, v.isInteger, v.toReport, v.bound)) =
      vs.map (fun v => (v.name, v.isInteger, v.toReport, v.bound))) (s : String → K) :
    varsOK s vs' ↔ varsOK s vs := by
  have key : ∀ l : List (Var K), varsOK s l ↔
      ∀ q ∈ l.map (fun v => (v.name, v.isInteger, v.toReport, v.bound)), q.2.2.2.allows (s q.1) := by
    intro l; simp [varsOK]
  rw [key, key, h]

/-! ## Adding constraints -/

theorem addAlg_sat {f f' : File K} {r : Bound K} {g : List (Tok K)} {js : List (String × K)}
    (h : addAlg f r g js = some f') (F : Funs K) (s : String → K) :
    (f'.sat F s ↔ f.sat F s ∧ Alg.holds F s ⟨r, g, js⟩) ∧ (∀ W, varsOK W f'.vars ↔ varsOK W f.vars) := by
  simp only [addAlg, Option.map_eq_some_iff] at h
  obtain ⟨vs, hv, rfl⟩ := h
  have hb := bumpVars_bounds hv
  refine ⟨?_, fun W => varsOK_congr hb W⟩
  simp only [File.sat, varsOK_congr hb, List.forall_mem_append, List.forall_mem_singleton]
  tauto

theorem addLogical_sat (f : File K) (g : List (Tok K)) (F : Funs K) (s : String → K) :
    (addLogical f g).sat F s ↔ f.sat F s ∧ logHolds F s g := by
  simp only [File.sat, addLogical, List.forall_mem_append, List.forall_mem_singleton]
  tauto

theorem evalT_tokOf (F : Funs K) (s : String → K) (a : Arg K) (vs : List K) :
    evalT F s (tokOf a) (some vs) = some (a.val s :: vs) := by
  cases a <;> rfl

theorem evalT_none (F : Funs K) (s : String → K) (t : Tok K) : evalT F s t none = none := rfl

theorem evalG_lin (F : Funs K) (s : String → K) : evalG F s [Tok.n (0 : K)] = some 0 := rfl

theorem jacVal_zip (s : String → K) (xs : List String) (cs : List K) :
    jacVal s (xs.zip cs) = dot cs (xs.map s) := by
  unfold jacVal dot
  congr 1
  induction xs generalizing cs with
  | nil => cases cs <;> simp
  | cons x xs ih => cases cs <;> simp [ih]

theorem dot_snoc (cs xs : List K) (c x : K) (h : cs.length = xs.length) :
    dot (cs ++ [c]) (xs ++ [x]) = dot cs xs + c * x := by
  unfold dot
  rw [List.zipWith_append h]
  simp

/-- The summands of a sum. -/
theorem foldr_sigma (F : Funs K) (s : String → K) (cs : List K) (xs : List String) (st : List K) :
    (List.zipWith sigmaTerm cs xs).flatten.foldr (evalT F s) (some st) =
      some (List.zipWith (· * ·) cs (xs.map s) ++ st) := by
  induction cs generalizing xs with
  | nil => simp
  | cons c cs ih =>
    cases xs with
    | nil => simp
    | cons x xs =>
      simp only [List.zipWith_cons_cons, List.flatten_cons, List.foldr_append, ih, List.map_cons,
        List.cons_append]
      unfold sigmaTerm
      split_ifs with h
      · simp [evalT, h]
      · simp [evalT, isOp1, nlOp2]

theorem foldr_makeSigma (F : Funs K) (s : String → K) (cs : List K) (xs : List String) (st : List K)
    (hl : cs.length = xs.length) (h2 : 2 ≤ cs.length) :
    (makeSigmaMult cs xs).foldr (evalT F s) (some st) = some (dot cs (xs.map s) :: st) := by
  unfold makeSigmaMult
  rw [List.foldr_append, foldr_sigma]
  split_ifs with h
  · match cs, xs, hl, h with
    | [a, b], [x, y], _, _ => simp [evalT, isOp1, nlOp2, dot]
  · have hlen : (List.zipWith (· * ·) cs (xs.map s)).length = cs.length := by
      simp [hl]
    simp only [List.foldr_cons, List.foldr_nil, evalT, Option.bind_some, List.length_append, hlen]
    rw [if_neg (by omega), List.take_append_of_le_length hlen.ge, List.drop_append_of_le_length hlen.ge,
      List.take_of_length_le hlen.le, List.drop_of_length_le hlen.le]
    simp only [nlOpN, hlen]
    rw [if_neg (by omega)]
    simp [dot]

/-! ## The constraints, builder by builder -/

theorem linconsEq_sat {f f' : File K} {cs : List K} {xs : List String} {v : Arg K}
    (h : linconsEq f cs xs v = some f') (hl : cs.length = xs.length) (F : Funs K) (s : String → K) :
    (f'.sat F s ↔ f.sat F s ∧ dot cs (xs.map s) = v.val s) ∧
      (∀ W, varsOK W f'.vars ↔ varsOK W f.vars) := by
  cases v with
  | c k =>
    refine ⟨?_, (addAlg_sat h F s).2⟩
    rw [(addAlg_sat h F s).1]
    simp [Alg.holds, evalG_lin, Bound.allows, jacVal_zip, Arg.val]
  | v y =>
    refine ⟨?_, (addAlg_sat h F s).2⟩
    rw [(addAlg_sat h F s).1]
    simp only [Alg.holds, List.isEmpty_nil, if_true, evalG_lin, Option.some.injEq, exists_eq_left',
      Bound.allows, jacVal_zip, List.map_append, List.map_cons, List.map_nil, zero_add, Arg.val]
    rw [dot_snoc _ _ _ _ (by simpa using hl)]
    refine and_congr_right fun _ => ?_
    constructor <;> intro h <;> linear_combination h

theorem linconsLe_sat {f f' : File K} {cs : List K} {xs : List String} {v : Arg K}
    (h : linconsLe f cs xs v = some f') (hl : cs.length = xs.length) (F : Funs K) (s : String → K) :
    (f'.sat F s ↔ f.sat F s ∧ dot cs (xs.map s) ≤ v.val s) ∧
      (∀ W, varsOK W f'.vars ↔ varsOK W f.vars) := by
  cases v with
  | c k =>
    refine ⟨?_, (addAlg_sat h F s).2⟩
    rw [(addAlg_sat h F s).1]
    simp [Alg.holds, evalG_lin, Bound.allows, jacVal_zip, Arg.val]
  | v y =>
    refine ⟨?_, (addAlg_sat h F s).2⟩
    rw [(addAlg_sat h F s).1]
    simp only [Alg.holds, List.isEmpty_nil, if_true, evalG_lin, Option.some.injEq, exists_eq_left',
      Bound.allows, jacVal_zip, List.map_append, List.map_cons, List.map_nil, zero_add, Arg.val]
    rw [dot_snoc _ _ _ _ (by simpa using hl)]
    refine and_congr_right fun _ => ?_
    constructor <;> intro h <;> linarith

theorem logHolds_cmp (F : Funs K) (s : String → K) (oc : Nat) (g : List (Tok K)) (y : Arg K) (x : K)
    (hg : g.foldr (evalT F s) (some [y.val s]) = some [x, y.val s]) (ho : isOp1 oc = false) :
    logHolds F s (Tok.o oc :: (g ++ [tokOf y])) ↔ ∃ v, nlOp2 F oc x (y.val s) = some v ∧ v ≠ 0 := by
  have : (Tok.o oc :: (g ++ [tokOf y])).foldr (evalT F s) (some []) =
      (nlOp2 F oc x (y.val s)).map (fun v => [v]) := by
    simp only [List.foldr_cons, List.foldr_append, List.foldr_nil, evalT_tokOf, hg]
    simp [evalT, ho]
  simp only [logHolds, evalG, this]
  cases nlOp2 F oc x (y.val s) <;> simp

theorem linPred_sat (f : File K) (oc : Nat) {cs : List K} {xs : List String} (v : Arg K)
    (hl : cs.length = xs.length) (h2 : 2 ≤ cs.length) (ho : isOp1 oc = false) (F : Funs K)
    (s : String → K) :
    (linconsPredicate f oc cs xs v).sat F s ↔
      f.sat F s ∧ ∃ w, nlOp2 F oc (dot cs (xs.map s)) (v.val s) = some w ∧ w ≠ 0 := by
  unfold linconsPredicate
  rw [addLogical_sat, logHolds_cmp F s oc _ v _ (foldr_makeSigma F s cs xs _ hl h2) ho]

theorem pred_sat (f : File K) (oc : Nat) (x y : Arg K) (ho : isOp1 oc = false) (F : Funs K)
    (s : String → K) :
    (nlconsPredicate f oc x y).sat F s ↔
      f.sat F s ∧ ∃ w, nlOp2 F oc (x.val s) (y.val s) = some w ∧ w ≠ 0 := by
  unfold nlconsPredicate
  rw [addLogical_sat]
  have := logHolds_cmp F s oc [tokOf x] y (x.val s) (by simp [evalT_tokOf]) ho
  simp only [List.cons_append, List.nil_append] at this
  rw [this]

theorem jacVal_bin (s : String → K) (x y : Arg K) (z : String) : jacVal s (binJacobian x y z) = -s z := by
  unfold binJacobian jacVal
  cases x <;> cases y <;> simp
  split_ifs <;> simp

theorem jacVal_un (s : String → K) (x : Arg K) (z : String) : jacVal s (unJacobian x z) = -s z := by
  unfold unJacobian jacVal
  cases x <;> simp

/-- A constraint `graph = z`, with the result as a constant. -/
theorem graph_sat_c (F : Funs K) (s : String → K) (g : List (Tok K)) (hg : g ≠ []) (k : K) :
    Alg.holds F s ⟨.eq k, g, []⟩ ↔ evalG F s g = some k := by
  have hne : g.isEmpty = false := by cases g <;> simp_all
  simp [Alg.holds, hne, Bound.allows, jacVal]

/-- A constraint `graph = z`, with the result as a variable. -/
theorem graph_sat_v (F : Funs K) (s : String → K) (g : List (Tok K)) (hg : g ≠ []) (w : String)
    (js : List (String × K)) (hj : jacVal s js = -s w) :
    Alg.holds F s ⟨.eq 0, g, js⟩ ↔ evalG F s g = some (s w) := by
  have hne : g.isEmpty = false := by cases g <;> simp_all
  simp only [Alg.holds, hne, hj, Bound.allows]
  constructor
  · rintro ⟨v, hv, h0⟩
    have : v = s w := by linear_combination h0
    rw [← this]; simpa using hv
  · intro h
    exact ⟨s w, by simpa using h, by ring⟩

theorem bin_sat {f f' : File K} {op : Tok K} {x y z : Arg K} (h : nlconsBinary f op x y z = some f')
    (F : Funs K) (s : String → K) :
    (f'.sat F s ↔ f.sat F s ∧ evalG F s [op, tokOf x, tokOf y] = some (z.val s)) ∧
      (∀ W, varsOK W f'.vars ↔ varsOK W f.vars) := by
  cases z with
  | c k =>
    refine ⟨?_, (addAlg_sat h F s).2⟩
    rw [(addAlg_sat h F s).1]
    exact and_congr_right fun _ => graph_sat_c F s _ (by simp) k
  | v w =>
    refine ⟨?_, (addAlg_sat h F s).2⟩
    rw [(addAlg_sat h F s).1]
    exact and_congr_right fun _ => graph_sat_v F s _ (by simp) w _ (jacVal_bin s x y w)

theorem un_sat {f f' : File K} {oc : Nat} {x y : Arg K} (h : nlconsUnary f oc x y = some f')
    (F : Funs K) (s : String → K) :
    (f'.sat F s ↔ f.sat F s ∧ evalG F s [.o oc, tokOf x] = some (y.val s)) ∧
      (∀ W, varsOK W f'.vars ↔ varsOK W f.vars) := by
  cases y with
  | c k =>
    refine ⟨?_, (addAlg_sat h F s).2⟩
    rw [(addAlg_sat h F s).1]
    exact and_congr_right fun _ => graph_sat_c F s _ (by simp) k
  | v w =>
    refine ⟨?_, (addAlg_sat h F s).2⟩
    rw [(addAlg_sat h F s).1]
    exact and_congr_right fun _ => graph_sat_v F s _ (by simp) w _ (jacVal_un s x w)

theorem log2_sat {f f' : File K} {x y : Arg K} (h : nlconsLog2 f x y = some f')
    (F : Funs K) (s : String → K) :
    (f'.sat F s ↔ f.sat F s ∧ F.log2 (x.val s) = some (y.val s)) ∧
      (∀ W, varsOK W f'.vars ↔ varsOK W f.vars) := by
  have hg : evalG F s [Tok.o 3, Tok.o 43, tokOf x, Tok.o 43, Tok.n 2] = F.log2 (x.val s) := by
    rw [F.log2_eq]
    have e1 : evalT F s (Tok.n 2) (some []) = some [(2 : K)] := rfl
    have e2 : evalT F s (Tok.o 43) (some [(2 : K)]) = (F.ln 2).map (fun b => [b]) := by
      simp [evalT, isOp1, nlOp1]
    simp only [evalG, List.foldr_cons, List.foldr_nil, e1, e2]
    cases F.ln 2 with
    | none =>
      simp only [Option.map_none, evalT_none]
      cases F.ln (x.val s) <;> rfl
    | some b =>
      simp only [Option.map_some, evalT_tokOf]
      have e3 : evalT F s (Tok.o 43) (some [x.val s, b]) = (F.ln (x.val s)).map (fun a => [a, b]) := by
        simp [evalT, isOp1, nlOp1]
      rw [e3]
      cases F.ln (x.val s) with
      | none => rfl
      | some a =>
        simp only [Option.map_some, evalT, isOp1, nlOp2, Option.bind_some]
        by_cases hb : b = 0 <;> simp [hb]
  cases y with
  | c k =>
    refine ⟨?_, (addAlg_sat h F s).2⟩
    rw [(addAlg_sat h F s).1, ← hg]
    exact and_congr_right fun _ => graph_sat_c F s _ (by simp) k
  | v w =>
    refine ⟨?_, (addAlg_sat h F s).2⟩
    rw [(addAlg_sat h F s).1, ← hg]
    exact and_congr_right fun _ => graph_sat_v F s _ (by simp) w _ (jacVal_un s x w)

theorem evalG_bin (F : Funs K) (s : String → K) (oc : Nat) (ho : isOp1 oc = false) (x y : Arg K) :
    evalG F s [.o oc, tokOf x, tokOf y] = nlOp2 F oc (x.val s) (y.val s) := by
  simp only [evalG, List.foldr_cons, List.foldr_nil, evalT_tokOf]
  simp only [evalT, Option.bind_some, ho]
  cases nlOp2 F oc (x.val s) (y.val s) <;> simp

theorem evalG_mbin (F : Funs K) (s : String → K) (oc : Nat) (x y : Arg K) :
    evalG F s [.mo oc 2, tokOf x, tokOf y] = nlOpN oc [x.val s, y.val s] := by
  simp only [evalG, List.foldr_cons, List.foldr_nil, evalT_tokOf]
  simp only [evalT, Option.bind_some]
  cases h : nlOpN oc [x.val s, y.val s] <;> simp [h]

theorem evalG_un (F : Funs K) (s : String → K) (oc : Nat) (ho : isOp1 oc = true) (x : Arg K) :
    evalG F s [.o oc, tokOf x] = nlOp1 F oc (x.val s) := by
  simp only [evalG, List.foldr_cons, List.foldr_nil, evalT_tokOf]
  simp only [evalT, Option.bind_some, ho]
  cases nlOp1 F oc (x.val s) <;> simp

end MZ.NL
