import Verif.NL.Counts
import Mathlib.Data.Rat.Floor
import Mathlib.Tactic.NormNum

/-!
# C86: the NL file written for a nonlinear solver is the FlatZinc problem
-/

namespace MZ.NL

variable {K : Type} [Field K] [LinearOrder K] [IsStrictOrderedRing K] [FloorRing K]

theorem writeNL_parts {p : Flat K} {f : File K} {ls : List (Line K)} (h : writeNL p = some (f, ls)) :
    collect p = some f ∧ closed f = true ∧ ls = printFile f := by
  simp only [writeNL, Option.bind_eq_some_iff] at h
  obtain ⟨g, hg, h⟩ := h
  split_ifs at h with hc
  simp only [Option.some.injEq, Prod.mk.injEq] at h
  obtain ⟨rfl, rfl⟩ := h
  exact ⟨hg, hc, rfl⟩

theorem agrees_of {p : Flat K} {f : File K} (hi : Inv p.decls f) {pt : Nat → K} {s : String → K}
    (ha : ∀ d ∈ p.decls, pt (varIndex f d.name) = s d.name) : Agrees f pt s := by
  intro v hv
  obtain ⟨d, hd, hdn⟩ := hi.mem_names.1 ⟨v, hv, rfl⟩
  rw [← hdn]; exact ha d hd

theorem int_vars {p : Flat K} {f : File K} (hi : Inv p.decls f) (hd : p.distinct) (s : String → K) :
    (∀ v ∈ f.vars, v.isInteger = true → ∃ z : ℤ, s v.name = z) ↔
      ∀ d ∈ p.decls, d.isInt = true → ∃ z : ℤ, s d.name = z := by
  have h1 : (∀ v ∈ f.vars, v.isInteger = true → ∃ z : ℤ, s v.name = z) ↔
      ∀ k ∈ f.vars.map Var.key, k.2.1 = true → ∃ z : ℤ, s k.1 = z := by
    simp [Var.key]
  rw [h1, hi.keys]
  simp

/-- The points of the file are the solutions of the problem: the divisions of integers are without
remainder, the exponents not negative, there are two variables at least, and the bounds of each
variable are consistent. -/
theorem _root_.MZ.C86_feasible_partial {p : Flat K} {f : File K} {ls : List (Line K)}
    (h : writeNL p = some (f, ls)) (hd : p.distinct) (hwf : ∀ c ∈ p.calls, c.wf p) (F : Funs K)
    (hbox : p.boxOK F) (h2 : 2 ≤ p.decls.length) {s : String → K} (hex : ∀ c ∈ p.calls, c.exact s)
    {pt : Nat → K} (ha : ∀ d ∈ p.decls, pt (varIndex f d.name) = s d.name) :
    Feasible F ls pt ↔ p.Sol F s := by
  obtain ⟨hcol, hc, rfl⟩ := writeNL_parts h
  have hi := collect_inv hcol hd
  have hn : (f.vars.map Var.name).Nodup := by rw [hi.names]; exact hd
  have hlen : f.vars.length = p.decls.length := by
    have := congrArg List.length hi.names; simpa using this
  rw [feasible_iff hi.obj hn hc F (agrees_of hi ha), int_vars hi hd]
  constructor
  · rintro ⟨hint, hb, hal, hlo⟩
    exact (collect_sat hcol hd F s hwf hint hex hbox).1 ⟨hb (by omega), hal, hlo⟩
  · intro hs
    have hint : ∀ d ∈ p.decls, d.isInt = true → ∃ z : ℤ, s d.name = z := fun d hdm => (hs.1 d hdm).1
    obtain ⟨h1, h3, h4⟩ := (collect_sat hcol hd F s hwf hint hex hbox).2 hs
    exact ⟨hint, fun _ => h1, h3, h4⟩

/-- Every solution of the problem is a point of the file, whatever the number of variables and the
bounds. -/
theorem _root_.MZ.C86_no_solution_lost_partial {p : Flat K} {f : File K} {ls : List (Line K)}
    (h : writeNL p = some (f, ls)) (hd : p.distinct) (hwf : ∀ c ∈ p.calls, c.wf p) (F : Funs K)
    {s : String → K} (hex : ∀ c ∈ p.calls, c.exact s) (hs : p.Sol F s)
    {pt : Nat → K} (ha : ∀ d ∈ p.decls, pt (varIndex f d.name) = s d.name) : Feasible F ls pt := by
  obtain ⟨hcol, hc, rfl⟩ := writeNL_parts h
  have hi := collect_inv hcol hd
  have hn : (f.vars.map Var.name).Nodup := by rw [hi.names]; exact hd
  rw [feasible_iff hi.obj hn hc F (agrees_of hi ha), int_vars hi hd]
  obtain ⟨h1, h3, h4⟩ := collect_imp hcol F s hwf hex hs
  exact ⟨fun d hdm => (hs.1 d hdm).1, fun _ => h1, h3, h4⟩

/-- The positions of the file: each variable has one, they are `0 … n-1`, the integer variables are
where the header says, and so are the variables that occur in an expression. -/
theorem _root_.MZ.C86_order {p : Flat K} {f : File K} {ls : List (Line K)}
    (h : writeNL p = some (f, ls)) (hd : p.distinct) :
    hdrNum ls 1 0 = p.decls.length ∧
    (vnames f).Perm (p.decls.map Decl.name) ∧
    ∀ d ∈ p.decls, varIndex f d.name < p.decls.length ∧
      (vnames f)[varIndex f d.name]? = some d.name ∧
      (isIntIdx ls (varIndex f d.name) ↔ d.isInt = true) ∧
      (varIndex f d.name < hdrNum ls 4 0 ↔
        ∃ b ∈ segs ls, (b.letter = 'C' ∨ b.letter = 'L') ∧ Line.var (varIndex f d.name) ∈ b.body) := by
  obtain ⟨hcol, hc, rfl⟩ := writeNL_parts h
  have hi := collect_inv hcol hd
  have hn : (f.vars.map Var.name).Nodup := by rw [hi.names]; exact hd
  have hlen : f.vars.length = p.decls.length := by
    have := congrArg List.length hi.names; simpa using this
  refine ⟨by rw [← hlen]; simp [hdrNum_print, printHeader], ?_, ?_⟩
  · rw [vnames_eq hi.obj, ← hi.names]; exact (ordered_perm f).map _
  · intro d hdm
    have hkey : (d.name, d.isInt, d.output) ∈ f.vars.map Var.key := by
      rw [hi.keys]; exact List.mem_map_of_mem (f := fun d : Decl K => (d.name, d.isInt, d.output)) hdm
    obtain ⟨v, hv, hvk⟩ := List.mem_map.1 hkey
    simp only [Var.key, Prod.mk.injEq] at hvk
    obtain ⟨i, hiv⟩ := mem_ordered hv
    have hidx := varIndex_ordered hi.obj hn hiv
    rw [hvk.1] at hidx
    have hlt := (List.getElem?_eq_some_iff.1 hiv).1
    rw [ordered_length, hlen] at hlt
    refine ⟨by rw [hidx]; exact hlt, ?_, ?_, ?_⟩
    · rw [hidx, vnames_eq hi.obj, List.getElem?_map, hiv]; simp [hvk.1]
    · rw [hidx, isIntIdx_print hi.obj hiv, hvk.2.1]
    · rw [hidx, nonlinear_first hi.obj hiv, inNLCons_iff, segs_printFile, hvk.1]
      have hinj : ∀ n, (∃ w ∈ f.vars, w.name = n) → varIndex f n = i → n = d.name := by
        rintro n ⟨w, hw, rfl⟩ hni
        obtain ⟨j, hj⟩ := mem_ordered hw
        have := varIndex_ordered hi.obj hn hj
        rw [hni] at this
        subst this
        rw [hiv, Option.some.injEq] at hj
        rw [← hj, hvk.1]
      have hcl := closed_iff hc
      constructor
      · rintro (⟨a, ham, hta⟩ | ⟨g, hg, htg⟩)
        · obtain ⟨j, hj⟩ := List.mem_iff_getElem?.1 (mem_cnames.2 ham)
          have hf := find_algSegs f 0 j (cnames f) a hj
          exact ⟨_, by simp only [allSegs, List.mem_append]; exact Or.inr (Or.inr (Or.inl (List.mem_of_find?_eq_some hf))),
            Or.inl rfl, mem_printGraph_var.2 ⟨d.name, hta, hidx⟩⟩
        · have hm : ∃ b ∈ logSegs f 0 f.logical, b.body = g.map (printTok f) := by
            by_contra hno
            push Not at hno
            exact (mem_logSegs f 0 f.logical (fun ls => ls ≠ g.map (printTok f))).1 hno g hg rfl
          obtain ⟨b, hb, hbb⟩ := hm
          refine ⟨b, by simp [allSegs, hb], Or.inr (letters_logSegs f _ _ b hb), ?_⟩
          rw [hbb, mem_map_var]; exact ⟨d.name, htg, hidx⟩
      · rintro ⟨b, hb, hl | hl, hm⟩
        · obtain ⟨j, a, hj, hba⟩ := mem_algSegs (seg_CJ hb (Or.inl hl))
          rcases hba with rfl | ⟨-, rfl⟩
          · obtain ⟨n, hn', hni⟩ := mem_printGraph_var.1 hm
            have ham := mem_cnames.1 (List.mem_of_getElem? hj)
            rw [← hinj n ((hcl.1 a ham).1 n hn') hni]
            exact Or.inl ⟨a, ham, hn'⟩
          · simp at hl
        · have := (mem_logSegs f 0 f.logical (fun ls => Line.var i ∈ ls →
            ∃ g ∈ f.logical, Tok.v d.name ∈ g)).2 (by
              intro g hg hmg
              obtain ⟨n, hn', hni⟩ := mem_map_var.1 hmg
              rw [← hinj n (hcl.2.1 g hg n hn') hni]
              exact ⟨g, hg, hn'⟩) b (seg_L hb hl) hm
          exact Or.inr this

/-- The counts of the file: constraints, equalities, logical constraints, entries of the linear
parts (in all and up to each column), and the length of each linear part. -/
theorem _root_.MZ.C86_counts {p : Flat K} {f : File K} {ls : List (Line K)}
    (h : writeNL p = some (f, ls)) (hd : p.distinct) :
    hdrNum ls 1 1 = (segs ls).countP (fun b => b.letter == 'C') ∧
    hdrNum ls 1 5 = (segs ls).countP (fun b => b.letter == 'L') ∧
    hdrNum ls 1 3 = 0 ∧
    (∀ b ∈ segs ls, b.letter = 'r' → b.body.length = hdrNum ls 1 1 ∧
      hdrNum ls 1 4 = b.body.countP (fun l => match l with | .bnd 4 _ => true | _ => false)) ∧
    hdrNum ls 7 0 = (jLines ls).length ∧
    (∀ b ∈ segs ls, b.letter = 'J' → ∃ j, b.nums = [j, b.body.length] ∧ j < hdrNum ls 1 1) ∧
    (∀ b ∈ segs ls, b.letter = 'k' → b.nums = [p.decls.length - 1] ∧ b.body.length = p.decls.length - 1 ∧
      ∀ (i : Nat) (l : Line K), b.body[i]? = some l →
        l = .cnt ((jLines ls).countP (fun l => match l with | .lin j _ => decide (j ≤ i) | _ => false))) ∧
    (∀ b ∈ segs ls, b.letter = 'C' → ∀ j, b.nums = [j] → hdrNum ls 2 0 ≤ j → b.body = [.num 0]) := by
  obtain ⟨hcol, hc, rfl⟩ := writeNL_parts h
  have hi := collect_inv hcol hd
  have hn : (f.vars.map Var.name).Nodup := by rw [hi.names]; exact hd
  have hlen : f.vars.length = p.decls.length := by
    have := congrArg List.length hi.names; simpa using this
  have h11 : hdrNum (printFile f) 1 1 = f.cons.length := by simp [hdrNum_print, printHeader]
  have hcl := (cnames_perm f).length_eq
  refine ⟨?_, ?_, ?_, ?_, ?_, ?_, ?_, ?_⟩
  · rw [segs_printFile, count_C, h11]
  · rw [segs_printFile, count_L]; simp [hdrNum_print, printHeader]
  · have : hdrNum (printFile f) 1 3 = f.cons.countP (fun a => isRange a.range) := by
      simp [hdrNum_print, printHeader]
    rw [this, List.countP_eq_zero]
    intro a ha
    rcases hi.ranges a ha with ⟨v, hv⟩ | ⟨v, hv⟩ <;> simp [hv, isRange]
  · intro b hb hl
    rw [segs_printFile] at hb
    rw [seg_r hb hl, h11]
    refine ⟨by simp [hcl], ?_⟩
    have : hdrNum (printFile f) 1 4 = f.cons.countP (fun a => isEqCounted a.range) := by
      simp [hdrNum_print, printHeader]
    rw [this, ← (cnames_perm f).countP_eq, List.countP_map]
    refine List.countP_congr fun a ha => ?_
    rcases hi.ranges a (mem_cnames.1 ha) with ⟨v, hv⟩ | ⟨v, hv⟩ <;> simp [hv, isEqCounted, printBound]
  · rw [← total hi hd]; simp [hdrNum_print, printHeader]
  · intro b hb hl
    rw [segs_printFile] at hb
    obtain ⟨j, a, hj, hba⟩ := mem_algSegs (seg_CJ hb (Or.inr hl))
    rcases hba with rfl | ⟨-, rfl⟩
    · simp at hl
    · refine ⟨0 + j, by simp [printTerms], ?_⟩
      have := (List.getElem?_eq_some_iff.1 hj).1
      rw [h11]; omega
  · intro b hb hl
    rw [segs_printFile] at hb
    simp only [allSegs, List.mem_append] at hb
    rcases hb with hb | hb | hb | hb | hb
    · unfold varSegs at hb
      split_ifs at hb with h1
      · simp only [List.mem_cons, List.not_mem_nil, or_false] at hb
        rcases hb with rfl | rfl
        · have hpc : printCounts f 0 ((vnames f).take (f.vars.length - 1)) =
              (sums 0 (((ordered f).take (f.vars.length - 1)).map Var.jacobianCount)).map Line.cnt := by
            rw [vnames_eq hi.obj, ← List.map_take]
            exact printCounts_eq hn _ (fun v hv => (ordered_perm f).mem_iff.1 (List.mem_of_mem_take hv)) 0
          refine ⟨by rw [hlen], ?_, ?_⟩
          · simp only [hpc, List.length_map, sums_length, List.length_take, ordered_length]
            omega
          · intro i l hil
            simp only [hpc, List.getElem?_map, Option.map_eq_some_iff] at hil
            obtain ⟨n, hn', rfl⟩ := hil
            have hlt := (List.getElem?_eq_some_iff.1 hn').1
            rw [sums_length, List.length_map, List.length_take, ordered_length] at hlt
            have := sums_get _ _ _ _ hn'
            rw [← List.map_take, List.take_take, Nat.zero_add,
              show min (i + 1) (f.vars.length - 1) = i + 1 by omega, columns hi hd] at this
            rw [this]
            congr 1
            refine List.countP_congr fun l _ => ?_
            cases l <;> simp [Nat.lt_succ_iff]
        · simp at hl
      · simp at hb
    · rw [letters_rngSegs f b hb] at hl; simp at hl
    · rcases letters_algSegs f _ _ b hb with h | h <;> rw [h] at hl <;> simp at hl
    · rw [letters_logSegs f _ _ b hb] at hl; simp at hl
    · rcases letters_objSegs f b hb with h | h <;> rw [h] at hl <;> simp at hl
  · intro b hb hl j hj hge
    rw [segs_printFile] at hb
    obtain ⟨j', a, hj', hba⟩ := mem_algSegs (seg_CJ hb (Or.inl hl))
    rcases hba with rfl | ⟨-, rfl⟩
    · simp only [List.cons.injEq, and_true] at hj
      have h20 : hdrNum (printFile f) 2 0 = (f.cons.filter (fun a => !a.graph.isEmpty)).length := by
        simp [hdrNum_print, printHeader]
      rw [h20] at hge
      unfold cnames at hj'
      rw [List.getElem?_append_right (by omega)] at hj'
      have := List.mem_of_getElem? hj'
      simp only [List.mem_filter, List.isEmpty_iff] at this
      simp [printGraph, this.2]
    · simp at hl

/-- The objective of the file is the objective of the problem. -/
theorem _root_.MZ.C86_objective {p : Flat K} {f : File K} {ls : List (Line K)}
    (h : writeNL p = some (f, ls)) (hd : p.distinct) (F : Funs K) {s : String → K} {pt : Nat → K}
    (ha : ∀ d ∈ p.decls, pt (varIndex f d.name) = s d.name) :
    (∀ x, p.obj = some (.v x) → p.sense = .minimize → objVal F pt ls = some (s x) ∧ objMax ls = some false) ∧
    (∀ x, p.obj = some (.v x) → p.sense = .maximize → objVal F pt ls = some (s x) ∧ objMax ls = some true) ∧
    (p.sense = .satisfy → objVal F pt ls = some 0) := by
  obtain ⟨hcol, hc, rfl⟩ := writeNL_parts h
  have hi := collect_inv hcol hd
  obtain ⟨vs, f1, -, -, h3⟩ := collect_parts hcol
  have hv := objVal_print hi.obj hc F (agrees_of hi ha)
  have hm := objMax_print f
  refine ⟨?_, ?_, ?_⟩
  · intro x hx hse
    rw [hx, hse] at h3
    simp only [addSolve, Option.some.injEq] at h3
    subst h3
    exact ⟨by rw [hv]; simp [jacVal], by rw [hm]⟩
  · intro x hx hse
    rw [hx, hse] at h3
    simp only [addSolve, Option.some.injEq] at h3
    subst h3
    exact ⟨by rw [hv]; simp [jacVal], by rw [hm]⟩
  · intro hse
    rw [hse] at h3
    simp only [addSolve, Option.some.injEq] at h3
    subst h3
    rw [hv]

/-- A linear part that is there lists every variable of the expression of its constraint. -/
theorem _root_.MZ.C86_sparsity_partial {p : Flat K} {f : File K} {ls : List (Line K)}
    (h : writeNL p = some (f, ls)) (hd : p.distinct) {b c : Seg K} (hb : b ∈ segs ls) (hbc : b.letter = 'C')
    (hcm : c ∈ segs ls) (hcc : c.letter = 'J') {j : Nat} (hbn : b.nums = [j]) (hcn : c.nums.head? = some j)
    {i : Nat} (hv : Line.var i ∈ b.body) : ∃ x : K, Line.lin i x ∈ c.body := by
  obtain ⟨hcol, hc, rfl⟩ := writeNL_parts h
  have hi := collect_inv hcol hd
  rw [segs_printFile] at hb hcm
  obtain ⟨j1, a, hj1, hba⟩ := mem_algSegs (seg_CJ hb (Or.inl hbc))
  obtain ⟨j2, a', hj2, hca⟩ := mem_algSegs (seg_CJ hcm (Or.inr hcc))
  rcases hba with rfl | ⟨-, rfl⟩
  · rcases hca with rfl | ⟨hne, rfl⟩
    · simp at hcc
    · simp only [List.cons.injEq, and_true] at hbn
      simp only [List.head?_cons, Option.some.injEq] at hcn
      have : j1 = j2 := by omega
      subst this
      rw [hj1, Option.some.injEq] at hj2
      subst hj2
      obtain ⟨n, hn, rfl⟩ := mem_printGraph_var.1 hv
      rcases hi.sparse a (mem_cnames.1 (List.mem_of_getElem? hj1)) with h0 | h0
      · exact absurd h0 hne
      · obtain ⟨e, he, hen⟩ := List.mem_map.1 (h0 n hn)
        exact ⟨e.2, List.mem_map.2 ⟨e, he, by rw [hen]⟩⟩
  · simp at hbc

/-! ## The solution -/

/-- A file with a solution, as solvers write it: a message, an empty line, the options, the numbers of
constraints and dual values and of variables and values, the dual values, the values, and the line
with the result code. -/
def solFile (msg : List String) (nopt : String) (opts : List String) (ncons nduals nvars nvals : String)
    (duals vals : List String) (last : String) (rest : List String) : List String :=
  msg ++ "" :: "Options" :: nopt :: (opts ++ ncons :: nduals :: nvars :: nvals :: (duals ++ vals ++ last :: rest))

theorem readVals_ok (stod : String → Option K) (vals : List String) (xs : List K) (rest : List String)
    (h : vals.map stod = xs.map some) : readVals stod vals.length (vals ++ rest) = some (xs, rest) := by
  induction vals generalizing xs with
  | nil =>
    cases xs with
    | nil => rfl
    | cons _ _ => simp at h
  | cons v vals ih =>
    cases xs with
    | nil => simp at h
    | cons x xs =>
      simp only [List.map_cons, List.cons.injEq] at h
      simp [readVals, h.1, ih xs h.2]

/-- A file with an options block is read as it is meant. -/
theorem _root_.MZ.C86_solution_read_partial (stoi : String → Option Int) (stod : String → Option K)
    (msg : List String) (nopt : String) (opts : List String) (ncons nduals nvars nvals : String)
    (duals vals : List String) (last : String) (rest : List String) (xs : List K) (code : Int)
    (hmsg : ∀ l ∈ msg, l ≠ "") (hopt : stoi nopt = some (opts.length : Int)) (hdu : stoi nduals = some (duals.length : Int))
    (hva : stoi nvals = some (vals.length : Int)) (hx : vals.map stod = xs.map some) (hl : 8 ≤ last.length)
    (hcode : stoi (String.ofList (last.toList.drop 8)) = some code) :
    parseSol stoi stod (solFile msg nopt opts ncons nduals nvars nvals duals vals last rest) =
      some (xs, statusOf code) := by
  have hdw : ((solFile msg nopt opts ncons nduals nvars nvals duals vals last rest).dropWhile
      (fun l => !l.isEmpty)).drop 1 =
      "Options" :: nopt :: (opts ++ ncons :: nduals :: nvars :: nvals :: (duals ++ vals ++ last :: rest)) := by
    unfold solFile
    rw [List.dropWhile_append_of_pos (by
      intro l hl'
      have := hmsg l hl'
      simpa using this)]
    rfl
  unfold parseSol
  dsimp only
  rw [hdw]
  dsimp only
  rw [if_pos rfl, hopt]
  have e1 : (Option.map (fun k : ℤ => List.drop k.toNat
      (opts ++ ncons :: nduals :: nvars :: nvals :: (duals ++ vals ++ last :: rest))) (some (opts.length : ℤ))) =
      some (ncons :: nduals :: nvars :: nvals :: (duals ++ vals ++ last :: rest)) := by
    simp
  rw [e1, Option.bind_some]
  dsimp only
  rw [hdu, hva, Option.bind_some, Option.bind_some, Int.toNat_natCast, Int.toNat_natCast,
    List.append_assoc, List.drop_left, readVals_ok stod vals xs _ hx, Option.bind_some]
  dsimp only
  rw [if_neg (by omega), hcode]
  rfl

/-- What the user is told: a solution for a code below 100, the search is complete when there is an
objective, unsatisfiable only for 200–299, unbounded only for 300–399. -/
theorem _root_.MZ.C86_verdict_partial (sense : Sense) (code : Int) :
    (verdict sense (statusOf code) = some (.solution true) ↔
      (0 ≤ code ∧ code < 100) ∧ (sense = .minimize ∨ sense = .maximize)) ∧
    (verdict sense (statusOf code) = some (.solution false) ↔
      (0 ≤ code ∧ code < 100) ∧ ¬ (sense = .minimize ∨ sense = .maximize)) ∧
    (verdict sense (statusOf code) = some .unsatisfiable ↔ 200 ≤ code ∧ code < 300) ∧
    (verdict sense (statusOf code) = some .unbounded ↔ 300 ≤ code ∧ code < 400) ∧
    (verdict sense (statusOf code) = none ↔ 500 ≤ code ∧ code < 600) ∧
    verdict sense (statusOf code) ≠ some .error := by
  unfold statusOf
  split_ifs <;> simp only [verdict, Option.some.injEq, reduceCtorEq, Verdict.solution.injEq,
    decide_eq_true_eq, decide_eq_false_iff_not, false_iff, true_iff, ne_eq, not_false_eq_true, and_true] <;>
    refine ⟨?_, ?_, ?_, ?_, ?_⟩ <;> first | omega | (constructor <;> (intro h; first | exact ⟨by omega, h⟩ | exact h.2)) | (intro h; omega)

/-- A solver that failed (codes 500–599) is not reported at all: the switch throws. -/
theorem _root_.MZ.C86_failure_reported_fails : verdict .satisfy (statusOf 500) = none := by decide

theorem trunc_int (z : ℤ) : truncZ ((z : ℤ) : K) = z := by
  unfold truncZ
  split_ifs <;> simp

/-- What is reported are the values of the point, for each output variable, when the values of the
integer variables are integers. -/
theorem _root_.MZ.C86_report_partial {p : Flat K} {f : File K} {ls : List (Line K)}
    (h : writeNL p = some (f, ls)) (hd : p.distinct) (values : List K) (s : String → K)
    (ha : ∀ d ∈ p.decls, values[varIndex f d.name]? = some (s d.name))
    (hint : ∀ d ∈ p.decls, d.isInt = true → ∃ z : ℤ, s d.name = z) (n : String) (x : K) :
    (n, x) ∈ report f values ↔ ∃ d ∈ p.decls, d.name = n ∧ d.output = true ∧ x = s n := by
  obtain ⟨hcol, hc, rfl⟩ := writeNL_parts h
  have hi := collect_inv hcol hd
  have hn : (f.vars.map Var.name).Nodup := by rw [hi.names]; exact hd
  have hval : ∀ {i : Nat} {v : Var K}, (ordered f)[i]? = some v → values[i]? = some (s v.name) := by
    intro i v hiv
    obtain ⟨d, hdm, hdn⟩ := hi.mem_names.1 ⟨v, (ordered_perm f).mem_iff.1 (List.mem_of_getElem? hiv), rfl⟩
    have := ha d hdm
    rwa [hdn, varIndex_ordered hi.obj hn hiv] at this
  have hiv := (int_vars hi hd s).2 hint
  have hone : ∀ v ∈ f.vars, (if v.isInteger = true then ((truncZ (s v.name) : Int) : K) else s v.name) = s v.name := by
    intro v hv
    split_ifs with hvi
    · obtain ⟨z, hz⟩ := hiv v hv hvi
      rw [hz, trunc_int]
    · rfl
  unfold report
  rw [vnames_eq hi.obj]
  constructor
  · intro hm
    obtain ⟨⟨n', x'⟩, hz, hr⟩ := List.mem_filterMap.1 hm
    obtain ⟨i, hi'⟩ := List.mem_iff_getElem?.1 hz
    rw [List.getElem?_zip_eq_some, List.getElem?_map, Option.map_eq_some_iff] at hi'
    obtain ⟨⟨v, hvi, rfl⟩, hx⟩ := hi'
    have hvm := (ordered_perm f).mem_iff.1 (List.mem_of_getElem? hvi)
    rw [hval hvi, Option.some.injEq] at hx
    simp only [varAt_of hn hvm] at hr
    split_ifs at hr with hrep hvint
    · simp only [Option.some.injEq, Prod.mk.injEq] at hr
      have h1 := hone v hvm
      rw [if_pos hvint] at h1
      have hk : v.key ∈ p.decls.map (fun d => (d.name, d.isInt, d.output)) := by
        rw [← hi.keys]; exact List.mem_map_of_mem hvm
      obtain ⟨d, hdm, hdk⟩ := List.mem_map.1 hk
      simp only [Var.key, Prod.mk.injEq] at hdk
      simp only at hx
      refine ⟨d, hdm, hdk.1.trans hr.1, hdk.2.2.trans hrep, ?_⟩
      rw [← hr.2, ← hr.1, ← hx, h1]
    · simp only [Option.some.injEq, Prod.mk.injEq] at hr
      have hk : v.key ∈ p.decls.map (fun d => (d.name, d.isInt, d.output)) := by
        rw [← hi.keys]; exact List.mem_map_of_mem hvm
      obtain ⟨d, hdm, hdk⟩ := List.mem_map.1 hk
      simp only [Var.key, Prod.mk.injEq] at hdk
      refine ⟨d, hdm, hdk.1.trans hr.1, hdk.2.2.trans hrep, ?_⟩
      rw [← hr.2, ← hr.1]; exact hx.symm
  · rintro ⟨d, hdm, rfl, hout, rfl⟩
    have hkey : (d.name, d.isInt, d.output) ∈ f.vars.map Var.key := by
      rw [hi.keys]; exact List.mem_map_of_mem (f := fun d : Decl K => (d.name, d.isInt, d.output)) hdm
    obtain ⟨v, hv, hvk⟩ := List.mem_map.1 hkey
    simp only [Var.key, Prod.mk.injEq] at hvk
    obtain ⟨i, hiv'⟩ := mem_ordered hv
    refine List.mem_filterMap.2 ⟨(v.name, s v.name), ?_, ?_⟩
    · refine List.mem_iff_getElem?.2 ⟨i, ?_⟩
      rw [List.getElem?_zip_eq_some, List.getElem?_map, hiv']
      exact ⟨rfl, hval hiv'⟩
    · have h1 := hone v hv
      have h2 := varAt_of hn hv
      simp only [h2, h1]
      rw [if_pos (hvk.2.2.trans hout), hvk.1]

/-- So are the values inside an output array, when the array has the type of its variables. -/
theorem _root_.MZ.C86_report_item_partial {p : Flat K} {f : File K} (values : List K) (s : String → K)
    (ha : ∀ d ∈ p.decls, values[varIndex f d.name]? = some (s d.name)) (d : Decl K) (hdm : d ∈ p.decls)
    (hint : d.isInt = true → ∃ z : ℤ, s d.name = z) : reportItem f values d.isInt d.name = some (s d.name) := by
  unfold reportItem
  rw [ha d hdm, Option.map_some]
  split_ifs with h
  · obtain ⟨z, hz⟩ := hint h
    rw [hz, trunc_int]
  · rfl

/-- From end to end: the values reported for a feasible point are those of a solution. -/
theorem _root_.MZ.C86_reported_solution_partial {p : Flat K} {f : File K} {ls : List (Line K)}
    (h : writeNL p = some (f, ls)) (hd : p.distinct) (hwf : ∀ c ∈ p.calls, c.wf p) (F : Funs K)
    (hbox : p.boxOK F) (h2 : 2 ≤ p.decls.length) (values : List K)
    (hlen : values.length = p.decls.length)
    (hex : ∀ c ∈ p.calls, c.exact (fun n => values.getD (varIndex f n) 0))
    (hf : Feasible F ls (fun i => values.getD i 0)) :
    ∃ s : String → K, p.Sol F s ∧
      ∀ n x, (n, x) ∈ report f values ↔ ∃ d ∈ p.decls, d.name = n ∧ d.output = true ∧ x = s n := by
  have hs := (MZ.C86_feasible_partial h hd hwf F hbox h2 hex (pt := fun i => values.getD i 0)
    (fun d _ => rfl)).1 hf
  refine ⟨_, hs, fun n x => MZ.C86_report_partial h hd values
    (fun n => values.getD (varIndex f n) 0) ?_ (fun d hdm => (hs.1 d hdm).1) n x⟩
  intro d hdm
  have hlt := ((MZ.C86_order h hd).2.2 d hdm).1
  rw [List.getElem?_eq_getElem (by omega)]
  simp [List.getD, List.getElem?_eq_getElem (show varIndex f d.name < values.length by omega)]

/-! ## Concrete problems, over the rational numbers -/

/-- Functions over the rational numbers: only powers with an integer exponent are defined. -/
def ratFuns : Funs ℚ where
  acos _ := none
  acosh _ := none
  asin _ := none
  asinh _ := none
  atan _ := none
  atanh _ := none
  cos _ := none
  cosh _ := none
  exp _ := none
  ln _ := none
  log10 _ := none
  log2 _ := none
  sqrt _ := none
  sin _ := none
  sinh _ := none
  tan _ := none
  tanh _ := none
  pow x y := if y.den = 1 then (if 0 ≤ y.num ∨ x ≠ 0 then some (x ^ y.num) else none) else none
  log2_eq _ := rfl
  pow_nat x n := by simp
  pow_neg x n hx := by simp [hx]

/-- A product of two integers, a linear inequality with a real number, and a disequality; maximise. -/
def sample : Flat ℚ where
  decls := [⟨"x", true, some [(1, 5)], true⟩, ⟨"y", true, some [(1, 4)], true⟩,
    ⟨"z", true, some [(0, 100)], false⟩, ⟨"r", false, none, true⟩]
  calls := [⟨"int_times", [], [], [.v "x", .v "y", .v "z"]⟩,
    ⟨"float_lin_le", [1, 2], ["z", "r"], [.c 11]⟩,
    ⟨"int_ne", [], [], [.v "x", .v "y"]⟩,
    ⟨"float_le", [], [], [.c (1/2), .v "r"]⟩]
  sense := .maximize
  obj := some (.v "z")

/-- The lines written for `sample`: the integers `x` and `y` are nonlinear, hence first. -/
example : (writeNL sample).map Prod.snd = some
    [.hdr [3, 1, 1, 0], .hdr [4, 2, 1, 0, 1, 1], .hdr [1, 0], .hdr [0, 0], .hdr [2, 0, 0],
     .hdr [0, 0, 0, 1], .hdr [0, 1, 0, 2, 0], .hdr [5, 1], .hdr [0, 0], .hdr [0, 0, 0, 0, 0],
     .seg 'k' [3], .cnt 1, .cnt 2, .cnt 3,
     .seg 'b' [], .bnd 0 [1, 5], .bnd 0 [1, 4], .bnd 2 [1/2], .bnd 0 [0, 100],
     .seg 'r' [], .bnd 4 [0], .bnd 1 [11],
     .seg 'C' [0], .op 2, .var 0, .var 1, .seg 'J' [0, 3], .lin 0 0, .lin 1 0, .lin 3 (-1),
     .seg 'C' [1], .num 0, .seg 'J' [1, 2], .lin 3 1, .lin 2 2,
     .seg 'L' [0], .op 30, .var 0, .var 1,
     .seg 'O' [0, 1], .num 0, .seg 'G' [0, 1], .lin 3 1] := by
  decide +kernel

/-- The hypotheses of `C86_feasible_partial` hold of `sample`, and it has the solution
`x = 2, y = 4, z = 8, r = 3/2`. -/
example : sample.distinct ∧ (∀ c ∈ sample.calls, c.wf sample) ∧ sample.boxOK ratFuns ∧
    2 ≤ sample.decls.length ∧ ∃ s : String → ℚ, (∀ c ∈ sample.calls, c.exact s) ∧ sample.Sol ratFuns s := by
  refine ⟨by unfold Flat.distinct; decide, ?_, ?_, by decide, fun n => if n = "x" then 2 else if n = "y" then 4 else
    if n = "z" then 8 else 3/2, ?_, ?_⟩
  · intro c hc
    simp only [sample, List.mem_cons, List.not_mem_nil, or_false] at hc
    rcases hc with rfl | rfl | rfl | rfl <;> refine ⟨by decide, by decide, by intro x y h; simp at h, by intro h; simp at h⟩
  · intro d hd
    simp only [sample, List.mem_cons, List.not_mem_nil, or_false] at hd
    rcases hd with rfl | rfl | rfl | rfl <;> refine ⟨1, ?_, ?_⟩
    all_goals first
      | (intro rs h; simp only [Option.some.injEq] at h; subst h; simp; done)
      | (intro rs h; simp at h; done)
      | skip
    all_goals
      intro c hc hu
      simp only [sample, List.mem_cons, List.not_mem_nil, or_false] at hc
      rcases hc with rfl | rfl | rfl | rfl <;> simp [Call.unary] at hu
    · simp [Call.holds, meaning, rel2, Arg.val]; norm_num
  · intro c hc
    simp only [sample, List.mem_cons, List.not_mem_nil, or_false] at hc
    rcases hc with rfl | rfl | rfl | rfl <;> simp [Call.exact]
  · constructor
    · intro d hd
      simp only [sample, List.mem_cons, List.not_mem_nil, or_false] at hd
      rcases hd with rfl | rfl | rfl | rfl
      · exact ⟨fun _ => ⟨2, by simp⟩, fun rs h => by simp at h; subst h; simp; norm_num⟩
      · exact ⟨fun _ => ⟨4, by simp⟩, fun rs h => by simp at h; subst h; simp⟩
      · exact ⟨fun _ => ⟨8, by simp⟩, fun rs h => by simp at h; subst h; simp; norm_num⟩
      · exact ⟨fun h => by simp at h, fun rs h => by simp at h⟩
    · intro c hc
      simp only [sample, List.mem_cons, List.not_mem_nil, or_false] at hc
      rcases hc with rfl | rfl | rfl | rfl <;> simp [Call.holds, meaning, rel2, rel3, linRel, dot, Arg.val] <;> norm_num

/-! ## Where the file is not the problem -/

/-- A concrete problem, as it is collected. -/
theorem concrete {p : Flat ℚ} {vs : List (Var ℚ)} {cons : List (Alg ℚ)} {lg : List (List (Tok ℚ))}
    (h : (writeNL p).map (fun r => (r.1.vars, r.1.cons, r.1.logical)) = some (vs, cons, lg)) (hd : p.distinct) :
    ∃ f ls, writeNL p = some (f, ls) ∧ f.vars = vs ∧ ∀ (F : Funs ℚ) (s : String → ℚ) (pt : Nat → ℚ),
      (∀ d ∈ p.decls, pt (varIndex f d.name) = s d.name) →
      (Feasible F ls pt ↔ (∀ v ∈ vs, v.isInteger = true → ∃ z : ℤ, s v.name = z) ∧
        (vs.length > 1 → varsOK s vs) ∧ (∀ a ∈ cons, a.holds F s) ∧ ∀ g ∈ lg, logHolds F s g) := by
  simp only [Option.map_eq_some_iff, Prod.mk.injEq] at h
  obtain ⟨⟨f, ls⟩, hw, h1, h2, h3⟩ := h
  dsimp only at h1 h2 h3
  refine ⟨f, ls, hw, h1, fun F s pt ha => ?_⟩
  obtain ⟨hcol, hc, rfl⟩ := writeNL_parts hw
  have hi := collect_inv hcol hd
  have hn : (f.vars.map Var.name).Nodup := by rw [hi.names]; exact hd
  rw [feasible_iff hi.obj hn hc F (agrees_of hi ha), h1, h2, h3]

/-- `7 div 2 = z`. -/
def divProblem : Flat ℚ where
  decls := [⟨"x", true, some [(7, 7)], true⟩, ⟨"z", true, some [(0, 10)], true⟩]
  calls := [⟨"int_div", [], [], [.v "x", .c 2, .v "z"]⟩]
  sense := .satisfy
  obj := none

/-- The division of integers is written as the division of real numbers: `7 div 2 = 3` is lost. -/
theorem _root_.MZ.C86_int_div_fails : ∃ f ls, writeNL divProblem = some (f, ls) ∧ divProblem.distinct ∧
    (∀ c ∈ divProblem.calls, c.wf divProblem) ∧ ∃ s : String → ℚ, divProblem.Sol ratFuns s ∧
      ∀ pt : Nat → ℚ, (∀ d ∈ divProblem.decls, pt (varIndex f d.name) = s d.name) →
        ¬ Feasible ratFuns ls pt := by
  have hd : divProblem.distinct := by unfold Flat.distinct; decide
  obtain ⟨f, ls, hw, -, hf⟩ := concrete (p := divProblem)
    (vs := [⟨"x", true, true, .eq 7, 1⟩, ⟨"z", true, true, .lbub 0 10, 1⟩])
    (cons := [⟨.eq 0, [.o 3, .v "x", .n 2], [("x", 0), ("z", -1)]⟩]) (lg := []) (by decide +kernel) hd
  refine ⟨f, ls, hw, hd, ?_, fun n => if n = "x" then 7 else 3, ?_, ?_⟩
  · intro c hc
    simp only [divProblem, List.mem_singleton] at hc
    subst hc
    refine ⟨rfl, by simp, by intro x y h; simp at h, ?_⟩
    intro _ a ha
    simp only [List.mem_cons, List.not_mem_nil, or_false] at ha
    rcases ha with rfl | rfl | rfl
    · exact ⟨by simp, fun n h => ⟨_, List.mem_cons_self, by simpa using h, rfl⟩⟩
    · exact ⟨fun x h => ⟨2, by simpa using h.symm⟩, by simp⟩
    · exact ⟨by simp, fun n h => ⟨_, List.mem_cons_of_mem _ List.mem_cons_self, by simpa using h, rfl⟩⟩
  · constructor
    · intro d hdm
      simp only [divProblem, List.mem_cons, List.not_mem_nil, or_false] at hdm
      rcases hdm with rfl | rfl
      · exact ⟨fun _ => ⟨7, by simp⟩, fun rs h => by simp at h; subst h; simp⟩
      · exact ⟨fun _ => ⟨3, by simp⟩, fun rs h => by simp at h; subst h; simp; norm_num⟩
    · intro c hc
      simp only [divProblem, List.mem_singleton] at hc
      subst hc
      simp only [Call.holds, meaning]
      simp only [String.reduceEq, or_self, if_false, if_true]
      exact ⟨7, 2, by simp [Arg.val], by simp [Arg.val], by decide, by simp [Arg.val]⟩
  · intro pt ha hfe
    obtain ⟨-, -, h3, -⟩ := (hf ratFuns (fun n => if n = "x" then 7 else 3) pt ha).1 hfe
    obtain ⟨v, hv, hb⟩ := h3 _ List.mem_cons_self
    have he : evalG ratFuns (fun n => if n = "x" then 7 else 3) [Tok.o 3, .v "x", .n 2] = some (7 / 2) := by
      decide +kernel
    simp only [List.isEmpty_cons, Bool.false_eq_true, if_false] at hv
    rw [he, Option.some.injEq] at hv
    subst hv
    simp [Bound.allows, jacVal] at hb
    norm_num at hb

/-- `2 pow y = z` with a negative exponent. -/
def powProblem : Flat ℚ where
  decls := [⟨"y", true, some [(-3, -1)], true⟩, ⟨"z", true, some [(0, 10)], true⟩]
  calls := [⟨"int_pow", [], [], [.c 2, .v "y", .v "z"]⟩]
  sense := .satisfy
  obj := none

/-- A power with a negative exponent is written as the power of real numbers: `2 pow -1 = 0` is
lost. -/
theorem _root_.MZ.C86_int_pow_fails : ∃ f ls, writeNL powProblem = some (f, ls) ∧ powProblem.distinct ∧
    ∃ s : String → ℚ, powProblem.Sol ratFuns s ∧
      ∀ pt : Nat → ℚ, (∀ d ∈ powProblem.decls, pt (varIndex f d.name) = s d.name) →
        ¬ Feasible ratFuns ls pt := by
  have hd : powProblem.distinct := by unfold Flat.distinct; decide
  obtain ⟨f, ls, hw, -, hf⟩ := concrete (p := powProblem)
    (vs := [⟨"y", true, true, .lbub (-3) (-1), 1⟩, ⟨"z", true, true, .lbub 0 10, 1⟩])
    (cons := [⟨.eq 0, [.o 5, .n 2, .v "y"], [("y", 0), ("z", -1)]⟩]) (lg := []) (by decide +kernel) hd
  refine ⟨f, ls, hw, hd, fun n => if n = "y" then -1 else 0, ?_, ?_⟩
  · constructor
    · intro d hdm
      simp only [powProblem, List.mem_cons, List.not_mem_nil, or_false] at hdm
      rcases hdm with rfl | rfl
      · exact ⟨fun _ => ⟨-1, by simp⟩, fun rs h => by simp at h; subst h; simp⟩
      · exact ⟨fun _ => ⟨0, by simp⟩, fun rs h => by simp at h; subst h; simp⟩
    · intro c hc
      simp only [powProblem, List.mem_singleton] at hc
      subst hc
      simp only [Call.holds, meaning]
      simp only [String.reduceEq, or_self, if_false, if_true]
      exact ⟨2, -1, by simp [Arg.val], by simp [Arg.val], Or.inr ⟨by decide, by decide, by simp [Arg.val]⟩⟩
  · intro pt ha hfe
    obtain ⟨-, -, h3, -⟩ := (hf ratFuns (fun n => if n = "y" then -1 else 0) pt ha).1 hfe
    obtain ⟨v, hv, hb⟩ := h3 _ List.mem_cons_self
    have he : evalG ratFuns (fun n => if n = "y" then -1 else 0) [Tok.o 5, .n 2, .v "y"] = some (1 / 2) := by
      decide +kernel
    simp only [List.isEmpty_cons, Bool.false_eq_true, if_false] at hv
    rw [he, Option.some.injEq] at hv
    subst hv
    simp [Bound.allows, jacVal] at hb

/-- One variable with a domain. -/
def oneVar : Flat ℚ where
  decls := [⟨"x", true, some [(1, 5)], true⟩]
  calls := []
  sense := .satisfy
  obj := none

/-- The bounds of the variable of a problem with one variable are not written. -/
theorem _root_.MZ.C86_single_variable_fails : ∃ f ls, writeNL oneVar = some (f, ls) ∧
    Feasible ratFuns ls (fun _ => 9) ∧ ¬ oneVar.Sol ratFuns (fun _ => 9) := by
  have hd : oneVar.distinct := by unfold Flat.distinct; decide
  obtain ⟨f, ls, hw, -, hf⟩ := concrete (p := oneVar) (vs := [⟨"x", true, true, .lbub 1 5, 0⟩])
    (cons := []) (lg := []) (by decide +kernel) hd
  refine ⟨f, ls, hw, (hf ratFuns (fun _ => 9) _ (fun _ _ => rfl)).2 ⟨?_, by simp, by simp, by simp⟩, ?_⟩
  · intro v _ _; exact ⟨9, by simp⟩
  · rintro ⟨h, -⟩
    obtain ⟨r, hr, h1, h2⟩ := (h _ List.mem_cons_self).2 _ rfl
    simp only [List.mem_singleton] at hr
    subst hr
    norm_num at h2

/-- `x` in `1..5` and `x = 7`. -/
def badBounds : Flat ℚ where
  decls := [⟨"x", true, some [(1, 5)], true⟩, ⟨"y", true, some [(0, 9)], true⟩]
  calls := [⟨"int_eq", [], [], [.v "x", .c 7]⟩]
  sense := .satisfy
  obj := none

/-- A value outside the domain replaces the domain: the problem has no solution, the file has. -/
theorem _root_.MZ.C86_inconsistent_bounds_fails : ∃ f ls, writeNL badBounds = some (f, ls) ∧
    Feasible ratFuns ls (fun _ => 7) ∧ ∀ s, ¬ badBounds.Sol ratFuns s := by
  have hd : badBounds.distinct := by unfold Flat.distinct; decide
  obtain ⟨f, ls, hw, -, hf⟩ := concrete (p := badBounds)
    (vs := [⟨"x", true, true, .eq 7, 0⟩, ⟨"y", true, true, .lbub 0 9, 0⟩])
    (cons := []) (lg := []) (by decide +kernel) hd
  refine ⟨f, ls, hw, (hf ratFuns (fun _ => 7) _ (fun _ _ => rfl)).2 ⟨?_, ?_, by simp, by simp⟩, ?_⟩
  · intro v _ _; exact ⟨7, by simp⟩
  · intro _ v hv
    simp only [List.mem_cons, List.not_mem_nil, or_false] at hv
    rcases hv with rfl | rfl <;> simp [Bound.allows] ; norm_num
  · rintro s ⟨h, hc⟩
    obtain ⟨r, hr, h1, h2⟩ := (h _ List.mem_cons_self).2 _ rfl
    simp only [List.mem_singleton] at hr
    subst hr
    have := hc _ List.mem_cons_self
    simp only [Call.holds, meaning] at this
    simp [rel2, Arg.val] at this
    rw [this] at h2
    norm_num at h2

/-- `1 = 2` between constants. -/
def constProblem : Flat ℚ where
  decls := [⟨"x", true, none, true⟩, ⟨"y", true, none, true⟩]
  calls := [⟨"int_eq", [], [], [.c 1, .c 2]⟩]
  sense := .satisfy
  obj := none

/-- A false equality of two constants is dropped. -/
theorem _root_.MZ.C86_constants_fails : ∃ f ls, writeNL constProblem = some (f, ls) ∧
    Feasible ratFuns ls (fun _ => 0) ∧ ∀ s, ¬ constProblem.Sol ratFuns s := by
  have hd : constProblem.distinct := by unfold Flat.distinct; decide
  obtain ⟨f, ls, hw, -, hf⟩ := concrete (p := constProblem)
    (vs := [⟨"x", true, true, .free, 0⟩, ⟨"y", true, true, .free, 0⟩])
    (cons := []) (lg := []) (by decide +kernel) hd
  refine ⟨f, ls, hw, (hf ratFuns (fun _ => 0) _ (fun _ _ => rfl)).2 ⟨?_, ?_, by simp, by simp⟩, ?_⟩
  · intro v _ _; exact ⟨0, by simp⟩
  · intro _ v hv
    simp only [List.mem_cons, List.not_mem_nil, or_false] at hv
    rcases hv with rfl | rfl <;> simp [Bound.allows]
  · rintro s ⟨-, hc⟩
    have := hc _ List.mem_cons_self
    simp only [Call.holds, meaning] at this
    simp [rel2, Arg.val] at this

/-- `x` in `3..3` and `x ≤ 5`. -/
def fixedVar : Flat ℚ where
  decls := [⟨"x", true, some [(3, 3)], true⟩]
  calls := [⟨"int_le", [], [], [.v "x", .c 5]⟩]
  sense := .satisfy
  obj := none

/-- A bound on a variable that is fixed already throws, although it holds. -/
theorem _root_.MZ.C86_fixed_variable_fails : fixedVar.Sol ratFuns (fun _ => 3) ∧ writeNL fixedVar = none := by
  constructor
  · constructor
    · intro d hdm
      simp only [fixedVar, List.mem_singleton] at hdm
      subst hdm
      exact ⟨fun _ => ⟨3, by simp⟩, fun rs h => by simp at h; subst h; simp⟩
    · intro c hc
      simp only [fixedVar, List.mem_singleton] at hc
      subst hc
      simp [Call.holds, meaning, rel2, Arg.val]
      norm_num
  · have : (writeNL fixedVar).isNone = true := by decide +kernel
    simpa using this

/-- `x * y = 6`. -/
def constResult : Flat ℚ where
  decls := [⟨"x", true, some [(1, 6)], true⟩, ⟨"y", true, some [(1, 6)], true⟩]
  calls := [⟨"int_times", [], [], [.v "x", .v "y", .c 6]⟩]
  sense := .satisfy
  obj := none

/-- With a constant result there is no linear part at all: the variables of the expression are listed
nowhere, and the counts of the columns are zero. -/
theorem _root_.MZ.C86_sparsity_fails : (writeNL constResult).map Prod.snd = some
    [.hdr [3, 1, 1, 0], .hdr [2, 1, 1, 0, 1, 0], .hdr [1, 0], .hdr [0, 0], .hdr [2, 0, 0],
     .hdr [0, 0, 0, 1], .hdr [0, 0, 0, 2, 0], .hdr [0, 0], .hdr [0, 0], .hdr [0, 0, 0, 0, 0],
     .seg 'k' [1], .cnt 0, .seg 'b' [], .bnd 0 [1, 6], .bnd 0 [1, 6],
     .seg 'r' [], .bnd 4 [6], .seg 'C' [0], .op 2, .var 0, .var 1, .seg 'O' [0, 0], .num 0] := by
  decide +kernel

/-- Numbers of one digit, for the examples below. -/
def digit (s : String) : Option Int :=
  [("0", 0), ("1", 1), ("2", 2), ("3", 3), ("4", 4)].lookup s

/-- A file without an options block is misread: here a solution is a parse error. -/
theorem _root_.MZ.C86_no_options_fails :
    parseSol digit (fun s => (digit s).map fun z => (z : ℚ))
      ["solved", "", "1", "0", "2", "2", "3", "4", "objno 0 0"] = none ∧
    parseSol digit (fun s => (digit s).map fun z => (z : ℚ))
      ["solved", "", "Options", "1", "1", "1", "0", "2", "2", "3", "4", "objno 0 0"] =
        some ([3, 4], .solved) := by
  decide +kernel

/-- The value of an integer variable is rounded towards 0, not to the nearest integer. -/
theorem _root_.MZ.C86_rounding_fails :
    (writeNL oneVar).map (fun r => report r.1 [2999999999 / 1000000000]) = some [("x", 2)] := by
  decide +kernel

end MZ.NL
