import Verif.NL.Print
import Mathlib.Data.List.Perm.Basic
import Mathlib.Data.List.Nodup

/-!
# Positions, and the printed file against the collected problem
-/

namespace MZ.NL

variable {K : Type} [Field K] [LinearOrder K] [IsStrictOrderedRing K] [FloorRing K]

/-- The variables of a class. -/
def clsV (f : File K) (c i : Bool) : List (Var K) :=
  f.vars.filter fun v => (inNLCons f v.name == c) && (v.isInteger == i)

/-- The variables in the order of the file. -/
def ordered (f : File K) : List (Var K) :=
  clsV f true false ++ (clsV f true true ++ (clsV f false false ++ clsV f false true))

theorem cls_obj {f : File K} (ho : f.objGraph = []) (o c i : Bool) :
    cls f o c i = if o then [] else (clsV f c i).map Var.name := by
  cases o <;> simp [cls, clsV, inNLObj, ho]

theorem vnames_eq {f : File K} (ho : f.objGraph = []) : vnames f = (ordered f).map Var.name := by
  simp [vnames, ordered, cls_obj ho]

theorem ordered_perm (f : File K) : (ordered f).Perm f.vars := by
  have h1 : ∀ c, (clsV f c false ++ clsV f c true).Perm (f.vars.filter fun v => inNLCons f v.name == c) := by
    intro c
    have h := List.filter_append_perm (fun v : Var K => v.isInteger == false)
      (f.vars.filter fun v => inNLCons f v.name == c)
    rw [List.filter_filter, List.filter_filter] at h
    refine List.Perm.trans (List.Perm.of_eq ?_) h
    unfold clsV
    congr 1
    · refine List.filter_congr fun v _ => ?_
      rw [Bool.and_comm]
    · refine List.filter_congr fun v _ => ?_
      rw [Bool.and_comm]; cases v.isInteger <;> simp
  have h2 := List.filter_append_perm (fun v : Var K => inNLCons f v.name == true) f.vars
  have h3 : (f.vars.filter fun v => !(inNLCons f v.name == true)) =
      f.vars.filter fun v => inNLCons f v.name == false := by
    refine List.filter_congr fun v _ => ?_
    cases inNLCons f v.name <;> simp
  rw [h3] at h2
  refine List.Perm.trans ?_ h2
  unfold ordered
  rw [← List.append_assoc]
  exact (h1 true).append (h1 false)

theorem ordered_nodup {f : File K} (hn : (f.vars.map Var.name).Nodup) :
    ((ordered f).map Var.name).Nodup := ((ordered_perm f).map Var.name).nodup_iff.2 hn

theorem varIndex_ordered {f : File K} (ho : f.objGraph = []) (hn : (f.vars.map Var.name).Nodup) {i : Nat}
    {v : Var K} (h : (ordered f)[i]? = some v) : varIndex f v.name = i := by
  unfold varIndex
  rw [vnames_eq ho]
  obtain ⟨hi, rfl⟩ := List.getElem?_eq_some_iff.1 h
  have := (ordered_nodup hn).idxOf_getElem i (by simpa using hi)
  simpa using this

theorem varAt_of {f : File K} (hn : (f.vars.map Var.name).Nodup) {v : Var K} (hv : v ∈ f.vars) :
    varAt f v.name = some v := by
  unfold varAt
  generalize f.vars = vs at hn hv
  induction vs with
  | nil => simp at hv
  | cons w vs ih =>
    simp only [List.map_cons, List.nodup_cons] at hn
    rcases List.mem_cons.1 hv with rfl | hv
    · simp
    · have : w.name ≠ v.name := fun he => hn.1 (he ▸ List.mem_map_of_mem hv)
      rw [List.find?_cons_of_neg (by simpa using this)]
      exact ih hn.2 hv

theorem agrees_at {f : File K} (ho : f.objGraph = []) (hn : (f.vars.map Var.name).Nodup) {p : Nat → K}
    {s : String → K} (ha : Agrees f p s) {i : Nat} {v : Var K} (h : (ordered f)[i]? = some v) :
    p i = s v.name := by
  rw [← varIndex_ordered ho hn h]
  exact ha v ((ordered_perm f).mem_iff.1 (List.mem_of_getElem? h))

theorem mem_ordered {f : File K} {v : Var K} (hv : v ∈ f.vars) : ∃ i : Nat, (ordered f)[i]? = some v :=
  List.mem_iff_getElem?.1 ((ordered_perm f).mem_iff.2 hv)

theorem clsV_int {f : File K} {c i : Bool} {j : Nat} {v : Var K} (h : (clsV f c i)[j]? = some v) :
    v.isInteger = i ∧ inNLCons f v.name = c := by
  have := List.mem_of_getElem? h
  simp only [clsV, List.mem_filter, Bool.and_eq_true, beq_iff_eq] at this
  exact ⟨this.2.2, this.2.1⟩

/-- The lengths of the four classes. -/
theorem ordered_length (f : File K) : (ordered f).length = f.vars.length := (ordered_perm f).length_eq

theorem ordered_int (f : File K) {i : Nat} {v : Var K} (h : (ordered f)[i]? = some v) :
    v.isInteger = true ↔
      ((clsV f true false).length ≤ i ∧ i < (clsV f true false).length + (clsV f true true).length) ∨
      (f.vars.length - (clsV f false true).length ≤ i ∧ i < f.vars.length) := by
  have hl := ordered_length f
  have hlen : i < f.vars.length := by
    have := (List.getElem?_eq_some_iff.1 h).1
    omega
  unfold ordered at h hl
  simp only [List.length_append] at hl
  rw [List.getElem?_append] at h
  split_ifs at h with h1
  · have := (clsV_int h).1
    rw [this]; simp; omega
  · rw [List.getElem?_append] at h
    split_ifs at h with h2
    · have := (clsV_int h).1
      rw [this]; simp; omega
    · rw [List.getElem?_append] at h
      split_ifs at h with h3
      · have := (clsV_int h).1
        rw [this]; simp; omega
      · have := (clsV_int h).1
        rw [this]; simp; omega

theorem hdrNum_print (f : File K) (i j : Nat) :
    hdrNum (printFile f) i j = match (printHeader f)[i]? with
      | some (.hdr xs) => xs.getD j 0
      | _ => 0 := by
  unfold hdrNum; rw [cut_printFile]; rfl

/-- The integer positions of the file are those of the integer variables. -/
theorem isIntIdx_print {f : File K} (ho : f.objGraph = []) {i : Nat} {v : Var K}
    (h : (ordered f)[i]? = some v) : isIntIdx (printFile f) i ↔ v.isInteger = true := by
  rw [ordered_int f h]
  unfold isIntIdx
  simp only [hdrNum_print, printHeader, lvcCount, lvoCount, lvbCount, cls_obj ho]
  simp only [Bool.false_eq_true, if_true, if_false, List.length_nil, List.length_map]
  have hl := ordered_length f
  simp only [ordered, List.length_append] at hl
  generalize (clsV f true false).length = a at *
  generalize (clsV f true true).length = b at *
  generalize (clsV f false true).length = c at *
  generalize (clsV f false false).length = d at *
  generalize f.vars.length = n at *
  simp [Nat.add_comm b a]

theorem int_iff {f : File K} (ho : f.objGraph = []) (hn : (f.vars.map Var.name).Nodup) {p : Nat → K}
    {s : String → K} (ha : Agrees f p s) :
    (∀ i, i < hdrNum (printFile f) 1 0 → isIntIdx (printFile f) i → ∃ z : ℤ, p i = z) ↔
      ∀ v ∈ f.vars, v.isInteger = true → ∃ z : ℤ, s v.name = z := by
  have hh : hdrNum (printFile f) 1 0 = f.vars.length := by
    simp [hdrNum_print, printHeader]
  rw [hh]
  constructor
  · intro h v hv hi
    obtain ⟨i, hiv⟩ := mem_ordered hv
    have hlt := (List.getElem?_eq_some_iff.1 hiv).1
    rw [ordered_length] at hlt
    have := h i hlt ((isIntIdx_print ho hiv).2 hi)
    rwa [agrees_at ho hn ha hiv] at this
  · intro h i hi hint
    have hlt : i < (ordered f).length := by rw [ordered_length]; exact hi
    have hiv : (ordered f)[i]? = some (ordered f)[i] := List.getElem?_eq_getElem hlt
    have hm := (ordered_perm f).mem_iff.1 (List.mem_of_getElem? hiv)
    rw [agrees_at ho hn ha hiv]
    exact h _ hm ((isIntIdx_print ho hiv).1 hint)

theorem bndAllows_print (b : Bound K) (x : K) : bndAllows (printBound b) x ↔ b.allows x := by
  cases b <;> simp [printBound, bndAllows, Bound.allows]

/-- The segments with a letter. -/
theorem seg_b {f : File K} {b : Seg K} (hb : b ∈ allSegs f) (hl : b.letter = 'b') :
    f.vars.length > 1 ∧ b.body = printBounds f (vnames f) := by
  simp only [allSegs, List.mem_append] at hb
  rcases hb with hb | hb | hb | hb | hb
  · unfold varSegs at hb
    split_ifs at hb with h1
    · simp only [List.mem_cons, List.not_mem_nil, or_false] at hb
      rcases hb with rfl | rfl
      · simp at hl
      · exact ⟨h1, rfl⟩
    · simp at hb
  · rw [letters_rngSegs f b hb] at hl; simp at hl
  · rcases letters_algSegs f _ _ b hb with h | h <;> rw [h] at hl <;> simp at hl
  · rw [letters_logSegs f _ _ b hb] at hl; simp at hl
  · rcases letters_objSegs f b hb with h | h <;> rw [h] at hl <;> simp at hl

theorem seg_r {f : File K} {b : Seg K} (hb : b ∈ allSegs f) (hl : b.letter = 'r') :
    b.body = (cnames f).map (fun a => printBound a.range) := by
  simp only [allSegs, List.mem_append] at hb
  rcases hb with hb | hb | hb | hb | hb
  · rcases letters_varSegs f b hb with h | h <;> rw [h] at hl <;> simp at hl
  · unfold rngSegs at hb
    split_ifs at hb
    · simp at hb
    · simp only [List.mem_singleton] at hb; subst hb; rfl
  · rcases letters_algSegs f _ _ b hb with h | h <;> rw [h] at hl <;> simp at hl
  · rw [letters_logSegs f _ _ b hb] at hl; simp at hl
  · rcases letters_objSegs f b hb with h | h <;> rw [h] at hl <;> simp at hl

theorem seg_L {f : File K} {b : Seg K} (hb : b ∈ allSegs f) (hl : b.letter = 'L') :
    b ∈ logSegs f 0 f.logical := by
  simp only [allSegs, List.mem_append] at hb
  rcases hb with hb | hb | hb | hb | hb
  · rcases letters_varSegs f b hb with h | h <;> rw [h] at hl <;> simp at hl
  · rw [letters_rngSegs f b hb] at hl; simp at hl
  · rcases letters_algSegs f _ _ b hb with h | h <;> rw [h] at hl <;> simp at hl
  · exact hb
  · rcases letters_objSegs f b hb with h | h <;> rw [h] at hl <;> simp at hl

theorem mem_logSegs (f : File K) (i : Nat) (gs : List (List (Tok K))) (q : List (Line K) → Prop) :
    (∀ b ∈ logSegs f i gs, q b.body) ↔ ∀ g ∈ gs, q (g.map (printTok f)) := by
  induction gs generalizing i with
  | nil => simp [logSegs]
  | cons g gs ih => simp [logSegs, ih]

theorem bnd_iff {f : File K} (ho : f.objGraph = []) (hn : (f.vars.map Var.name).Nodup) {p : Nat → K}
    {s : String → K} (ha : Agrees f p s) :
    (∀ b ∈ segs (printFile f), b.letter = 'b' → ∀ i l, b.body[i]? = some l → bndAllows l (p i)) ↔
      (f.vars.length > 1 → varsOK s f.vars) := by
  rw [segs_printFile]
  have hline : ∀ (i : Nat) (v : Var K), (ordered f)[i]? = some v →
      (printBounds f (vnames f))[i]? = some (printBound v.bound) := by
    intro i v h
    simp only [printBounds, vnames_eq ho, List.getElem?_map, h, Option.map_some]
    rw [varAt_of hn ((ordered_perm f).mem_iff.1 (List.mem_of_getElem? h))]
    rfl
  constructor
  · intro h h1 v hv
    obtain ⟨i, hiv⟩ := mem_ordered hv
    have := h ⟨'b', [], printBounds f (vnames f)⟩ (by simp [allSegs, varSegs, h1]) rfl i _ (hline i v hiv)
    rwa [bndAllows_print, agrees_at ho hn ha hiv] at this
  · intro h b hb hl i l hil
    obtain ⟨h1, hbody⟩ := seg_b hb hl
    rw [hbody] at hil
    have hlt := (List.getElem?_eq_some_iff.1 hil).1
    simp only [printBounds, vnames_eq ho, List.length_map] at hlt
    have hiv : (ordered f)[i]? = some (ordered f)[i] := List.getElem?_eq_getElem hlt
    rw [hline i _ hiv, Option.some.injEq] at hil
    rw [← hil, bndAllows_print, agrees_at ho hn ha hiv]
    exact h h1 _ ((ordered_perm f).mem_iff.1 (List.mem_of_getElem? hiv))

theorem mem_cnames {f : File K} {a : Alg K} : a ∈ cnames f ↔ a ∈ f.cons := by
  simp only [cnames, List.mem_append, List.mem_filter]
  cases a.graph.isEmpty <;> simp

theorem body_holds {f : File K} (hc : closed f = true) {p : Nat → K} {s : String → K}
    (ha : Agrees f p s) (F : Funs K) {j : Nat} {a : Alg K} (h : (cnames f)[j]? = some a) :
    (∃ v, bodyVal F p (printFile f) j = some v ∧ bndAllows (printBound a.range) v) ↔ a.holds F s := by
  have hm : a ∈ f.cons := mem_cnames.1 (List.mem_of_getElem? h)
  have hk := (closed_iff hc).1 a hm
  rw [bodyVal_printFile f F p j a h,
    evalExpr_graph F a.graph (s := s) (fun n hn => by
      obtain ⟨v, hv, rfl⟩ := hk.1 n hn
      exact ha v hv),
    linVal_print (s := s) a.jacobian (fun e he => by
      obtain ⟨v, hv, hve⟩ := hk.2 e he
      rw [← hve]; exact ha v hv)]
  unfold Alg.holds
  simp only [Option.map_eq_some_iff, bndAllows_print]
  constructor
  · rintro ⟨v, ⟨w, hw, rfl⟩, hb⟩; exact ⟨w, hw, hb⟩
  · rintro ⟨w, hw, hb⟩; exact ⟨_, ⟨w, hw, rfl⟩, hb⟩

theorem rng_iff {f : File K} (hc : closed f = true) {p : Nat → K} {s : String → K}
    (ha : Agrees f p s) (F : Funs K) :
    (∀ b ∈ segs (printFile f), b.letter = 'r' → ∀ j l, b.body[j]? = some l →
      ∃ v, bodyVal F p (printFile f) j = some v ∧ bndAllows l v) ↔ ∀ a ∈ f.cons, a.holds F s := by
  rw [segs_printFile]
  constructor
  · intro h a hm
    obtain ⟨j, hj⟩ := List.mem_iff_getElem?.1 (mem_cnames.2 hm)
    have hne : (cnames f).isEmpty = false := by
      cases hcn : cnames f with
      | nil => rw [hcn] at hj; simp at hj
      | cons _ _ => rfl
    have := h ⟨'r', [], (cnames f).map (fun a => printBound a.range)⟩
      (by simp [allSegs, rngSegs, hne]) rfl j (printBound a.range) (by simp [hj])
    exact (body_holds hc ha F hj).1 this
  · intro h b hb hl j l hjl
    rw [seg_r hb hl, List.getElem?_map, Option.map_eq_some_iff] at hjl
    obtain ⟨a, hj, rfl⟩ := hjl
    exact (body_holds hc ha F hj).2 (h a (mem_cnames.1 (List.mem_of_getElem? hj)))

theorem log_iff {f : File K} (hc : closed f = true) {p : Nat → K} {s : String → K}
    (ha : Agrees f p s) (F : Funs K) :
    (∀ b ∈ segs (printFile f), b.letter = 'L' → ∃ v, evalExpr F p b.body = some v ∧ v ≠ 0) ↔
      ∀ g ∈ f.logical, logHolds F s g := by
  rw [segs_printFile]
  have h1 : (∀ b ∈ allSegs f, b.letter = 'L' → ∃ v, evalExpr F p b.body = some v ∧ v ≠ 0) ↔
      ∀ b ∈ logSegs f 0 f.logical, ∃ v, evalExpr F p b.body = some v ∧ v ≠ 0 := by
    constructor
    · intro h b hb
      exact h b (by simp [allSegs, hb]) (letters_logSegs f _ _ b hb)
    · intro h b hb hl
      exact h b (seg_L hb hl)
  rw [h1, mem_logSegs f 0 f.logical (fun ls => ∃ v, evalExpr F p ls = some v ∧ v ≠ 0)]
  refine forall₂_congr fun g hg => ?_
  rw [evalExpr_print F g (s := s) (fun n hn => by
    obtain ⟨v, hv, rfl⟩ := (closed_iff hc).2.1 g hg n hn
    exact ha v hv)]
  rfl

/-- The printed file has the points of the collected problem. -/
theorem feasible_iff {f : File K} (ho : f.objGraph = []) (hn : (f.vars.map Var.name).Nodup)
    (hc : closed f = true) (F : Funs K) {p : Nat → K} {s : String → K} (ha : Agrees f p s) :
    Feasible F (printFile f) p ↔
      (∀ v ∈ f.vars, v.isInteger = true → ∃ z : ℤ, s v.name = z) ∧
      (f.vars.length > 1 → varsOK s f.vars) ∧
      (∀ a ∈ f.cons, a.holds F s) ∧ ∀ g ∈ f.logical, logHolds F s g := by
  unfold Feasible
  rw [int_iff ho hn ha, bnd_iff ho hn ha, rng_iff hc ha F, log_iff hc ha F]

/-! ## The objective -/

theorem objVal_print {f : File K} (ho : f.objGraph = []) (hc : closed f = true) (F : Funs K)
    {p : Nat → K} {s : String → K} (ha : Agrees f p s) :
    objVal F p (printFile f) =
      match f.sense with
      | .undef => none
      | .satisfy => some 0
      | _ => some (jacVal s f.gradient) := by
  unfold objVal
  rw [segs_printFile]
  have hfind : (allSegs f).find? (fun b => b.letter == 'O') =
      (objSegs f).find? (fun b => b.letter == 'O') := by
    unfold allSegs
    rw [List.find?_append, find_none _ (varSegs f) (fun b hb => by
        rcases letters_varSegs f b hb with h | h <;> simp [h]), Option.none_or,
      List.find?_append, find_none _ (rngSegs f) (fun b hb => by simp [letters_rngSegs f b hb]),
      Option.none_or, List.find?_append, find_none _ (algSegs f 0 _) (fun b hb => by
        rcases letters_algSegs f _ _ b hb with h | h <;> simp [h]), Option.none_or,
      List.find?_append, find_none _ (logSegs f 0 f.logical) (fun b hb => by
        simp [letters_logSegs f _ _ b hb]), Option.none_or]
  have hfil : ((allSegs f).filter fun b => b.letter == 'G') =
      (objSegs f).filter fun b => b.letter == 'G' := by
    unfold allSegs
    rw [List.filter_append, List.filter_append, List.filter_append, List.filter_append,
      filter_none _ (varSegs f) (fun b hb => by rcases letters_varSegs f b hb with h | h <;> simp [h]),
      filter_none _ (rngSegs f) (fun b hb => by simp [letters_rngSegs f b hb]),
      filter_none _ (algSegs f 0 _) (fun b hb => by
        rcases letters_algSegs f _ _ b hb with h | h <;> simp [h]),
      filter_none _ (logSegs f 0 f.logical) (fun b hb => by simp [letters_logSegs f _ _ b hb])]
    simp
  have hlin := linVal_print (f := f) (p := p) (s := s) f.gradient (fun e he => by
    obtain ⟨v, hv, hve⟩ := (closed_iff hc).2.2 e he
    rw [← hve]; exact ha v hv)
  have hz : evalExpr F p (printGraph f f.objGraph) = some 0 := by
    rw [ho]; rfl
  have hz' : evalExpr F p [Line.num (0 : K)] = some 0 := rfl
  have hge : f.gradient.isEmpty = true → jacVal s f.gradient = 0 := by
    intro h
    have : f.gradient = [] := by simpa using h
    rw [this]; rfl
  rw [hfind, hfil]
  unfold objSegs
  cases f.sense with
  | undef => rfl
  | satisfy => simp [hz']
  | minimize =>
    dsimp only
    by_cases hg : f.gradient.isEmpty = true
    · rw [if_pos hg]; simp [hz, hge hg]
    · rw [if_neg hg]; simp [hz, hlin]
  | maximize =>
    dsimp only
    by_cases hg : f.gradient.isEmpty = true
    · rw [if_pos hg]; simp [hz, hge hg]
    · rw [if_neg hg]; simp [hz, hlin]

theorem objMax_print (f : File K) :
    objMax (printFile f) =
      match f.sense with
      | .undef => none
      | .maximize => some true
      | _ => some false := by
  unfold objMax
  rw [segs_printFile]
  have hfind : (allSegs f).find? (fun b => b.letter == 'O') =
      (objSegs f).find? (fun b => b.letter == 'O') := by
    unfold allSegs
    rw [List.find?_append, find_none _ (varSegs f) (fun b hb => by
        rcases letters_varSegs f b hb with h | h <;> simp [h]), Option.none_or,
      List.find?_append, find_none _ (rngSegs f) (fun b hb => by simp [letters_rngSegs f b hb]),
      Option.none_or, List.find?_append, find_none _ (algSegs f 0 _) (fun b hb => by
        rcases letters_algSegs f _ _ b hb with h | h <;> simp [h]), Option.none_or,
      List.find?_append, find_none _ (logSegs f 0 f.logical) (fun b hb => by
        simp [letters_logSegs f _ _ b hb]), Option.none_or]
  rw [hfind]
  unfold objSegs
  cases f.sense <;> simp

/-! ## The counts -/

/-- The running sums of a list of numbers. -/
def sums : Nat → List Nat → List Nat
  | _, [] => []
  | acc, n :: ns => (acc + n) :: sums (acc + n) ns

theorem printCounts_eq {f : File K} (hn : (f.vars.map Var.name).Nodup) (vs : List (Var K))
    (hs : ∀ v ∈ vs, v ∈ f.vars) (acc : Nat) :
    printCounts f acc (vs.map Var.name) = (sums acc (vs.map Var.jacobianCount)).map Line.cnt := by
  induction vs generalizing acc with
  | nil => rfl
  | cons v vs ih =>
    simp only [List.map_cons, printCounts, sums]
    rw [varAt_of hn (hs v (by simp)), ih (fun w hw => hs w (by simp [hw]))]
    rfl

theorem sums_get (ns : List Nat) (acc i n : Nat) (h : (sums acc ns)[i]? = some n) :
    n = acc + (ns.take (i + 1)).sum := by
  induction ns generalizing acc i with
  | nil => simp [sums] at h
  | cons m ns ih =>
    cases i with
    | zero => simp only [sums, List.getElem?_cons_zero, Option.some.injEq] at h; simp [← h]
    | succ i =>
      simp only [sums, List.getElem?_cons_succ] at h
      rw [ih _ _ h]; simp; omega

theorem sums_length (ns : List Nat) (acc : Nat) : (sums acc ns).length = ns.length := by
  induction ns generalizing acc with
  | nil => rfl
  | cons m ns ih => simp [sums, ih]

end MZ.NL
