import Verif.NL.Index
import Mathlib.Algebra.BigOperators.Group.List.Lemmas

/-!
# The counts in the file
-/

namespace MZ.NL

variable {K : Type} [Field K] [LinearOrder K] [IsStrictOrderedRing K] [FloorRing K]

/-- The lines of the linear parts of the constraints. -/
def jLines (ls : List (Line K)) : List (Line K) :=
  ((segs ls).filter fun s => s.letter == 'J').flatMap Seg.body

theorem jLines_alg (f : File K) (i : Nat) (as : List (Alg K)) :
    ((algSegs f i as).filter fun s => s.letter == 'J').flatMap Seg.body =
      printTerms f (as.flatMap Alg.jacobian) := by
  induction as generalizing i with
  | nil => rfl
  | cons a as ih =>
    simp only [algSegs]
    rw [List.filter_cons_of_neg (by simp), List.filter_append, List.flatMap_append, ih]
    split_ifs with h
    · have : a.jacobian = [] := by simpa using h
      simp [this]
    · simp [printTerms]

theorem jLines_print (f : File K) : jLines (printFile f) = printTerms f ((cnames f).flatMap Alg.jacobian) := by
  unfold jLines
  rw [segs_printFile, ← jLines_alg f 0]
  congr 1
  unfold allSegs
  rw [List.filter_append, List.filter_append, List.filter_append, List.filter_append,
    filter_none _ (varSegs f) (fun b hb => by rcases letters_varSegs f b hb with h | h <;> simp [h]),
    filter_none _ (rngSegs f) (fun b hb => by simp [letters_rngSegs f b hb]),
    filter_none _ (logSegs f 0 f.logical) (fun b hb => by simp [letters_logSegs f _ _ b hb]),
    filter_none _ (objSegs f) (fun b hb => by rcases letters_objSegs f b hb with h | h <;> simp [h])]
  simp

theorem cnames_perm (f : File K) : (cnames f).Perm f.cons := by
  have := List.filter_append_perm (fun a : Alg K => !a.graph.isEmpty) f.cons
  simpa [cnames] using this

theorem jac_perm (f : File K) : ((cnames f).flatMap Alg.jacobian).Perm (allJac f) :=
  (cnames_perm f).flatMap_right _

/-- Among different names, at most one is the given one. -/
theorem sum_ind (vs : List (Var K)) (hn : (vs.map Var.name).Nodup) (n : String) :
    (vs.map fun v => if n = v.name then 1 else 0).sum = if n ∈ vs.map Var.name then 1 else 0 := by
  induction vs with
  | nil => simp
  | cons v vs ih =>
    simp only [List.map_cons, List.nodup_cons] at hn
    simp only [List.map_cons, List.sum_cons, ih hn.2, List.mem_cons]
    by_cases h : n = v.name
    · subst h; simp [hn.1]
    · simp [h]

theorem sum_occ (vs : List (Var K)) (hn : (vs.map Var.name).Nodup) (js : List (String × K)) :
    (vs.map fun v => occ v.name js).sum = js.countP (fun e => decide (e.1 ∈ vs.map Var.name)) := by
  induction js with
  | nil => simp [occ]
  | cons e js ih =>
    have : (vs.map fun v => occ v.name (e :: js)) =
        vs.map fun v => occ v.name js + (if e.1 = v.name then 1 else 0) := by
      refine List.map_congr_left fun v _ => ?_
      unfold occ
      rw [List.countP_cons]
      simp
    rw [this, List.sum_map_add, ih, sum_ind vs hn, List.countP_cons]
    simp

theorem mem_take_iff {f : File K} (ho : f.objGraph = []) (hn : (f.vars.map Var.name).Nodup) (k : Nat)
    {n : String} (h : ∃ v ∈ f.vars, v.name = n) :
    n ∈ ((ordered f).take k).map Var.name ↔ varIndex f n < k := by
  obtain ⟨v, hv, rfl⟩ := h
  obtain ⟨i, hi⟩ := mem_ordered hv
  have hidx := varIndex_ordered ho hn hi
  rw [hidx]
  constructor
  · intro hm
    obtain ⟨w, hw, hwn⟩ := List.mem_map.1 hm
    obtain ⟨j, hj⟩ := List.mem_iff_getElem?.1 hw
    rw [List.getElem?_take] at hj
    split_ifs at hj with hjk
    have := varIndex_ordered ho hn hj
    rw [hwn, hidx] at this
    omega
  · intro hik
    refine List.mem_map.2 ⟨v, List.mem_iff_getElem?.2 ⟨i, ?_⟩, rfl⟩
    rw [List.getElem?_take, if_pos hik, hi]

/-- The columns below a position. -/
theorem columns {ds : List (Decl K)} {f : File K} (hi : Inv ds f) (hd : (ds.map Decl.name).Nodup) (k : Nat) :
    (((ordered f).take k).map Var.jacobianCount).sum =
      (jLines (printFile f)).countP (fun l => match l with | .lin j _ => decide (j < k) | _ => false) := by
  have hn : (f.vars.map Var.name).Nodup := by rw [hi.names]; exact hd
  have hcnt : ((ordered f).take k).map Var.jacobianCount =
      ((ordered f).take k).map fun v => occ v.name (allJac f) := by
    refine List.map_congr_left fun v hv => ?_
    exact hi.counts v ((ordered_perm f).mem_iff.1 (List.mem_of_mem_take hv))
  have hnd : (((ordered f).take k).map Var.name).Nodup := by
    refine List.Sublist.nodup ?_ (ordered_nodup hn)
    exact (List.take_sublist _ _).map _
  rw [hcnt, sum_occ _ hnd, jLines_print]
  unfold printTerms
  rw [List.countP_map, ((jac_perm f).countP_eq _)]
  refine List.countP_congr fun e he => ?_
  have hk : ∃ v ∈ f.vars, v.name = e.1 := hi.mem_names.2 (by simpa using hi.known e he)
  have := mem_take_iff hi.obj hn k hk
  simp only [decide_eq_true_eq, Function.comp_def]
  exact this

theorem total {ds : List (Decl K)} {f : File K} (hi : Inv ds f) (hd : (ds.map Decl.name).Nodup) :
    jacobianCount f = (jLines (printFile f)).length := by
  have hn : (f.vars.map Var.name).Nodup := by rw [hi.names]; exact hd
  have h := columns hi hd (ordered f).length
  rw [List.take_length] at h
  have hp : jacobianCount f = ((ordered f).map Var.jacobianCount).sum := by
    unfold jacobianCount
    exact (((ordered_perm f).map _).sum_eq).symm
  rw [hp, h, List.countP_eq_length]
  intro l hl
  rw [jLines_print] at hl
  simp only [printTerms, List.mem_map] at hl
  obtain ⟨e, he, rfl⟩ := hl
  have hk : ∃ v ∈ f.vars, v.name = e.1 :=
    hi.mem_names.2 (by simpa using hi.known e ((jac_perm f).mem_iff.1 he))
  have := (mem_take_iff hi.obj hn (ordered f).length hk).1 (by
    obtain ⟨v, hv, hve⟩ := hk
    rw [List.take_length, ← hve]
    exact List.mem_map_of_mem ((ordered_perm f).mem_iff.2 hv))
  simpa using this

/-- The segments of the constraints, by position. -/
theorem mem_algSegs {f : File K} {i : Nat} {as : List (Alg K)} {b : Seg K} (hb : b ∈ algSegs f i as) :
    ∃ j a, as[j]? = some a ∧
      (b = ⟨'C', [i + j], printGraph f a.graph⟩ ∨
        (a.jacobian ≠ [] ∧ b = ⟨'J', [i + j, a.jacobian.length], printTerms f a.jacobian⟩)) := by
  induction as generalizing i with
  | nil => simp [algSegs] at hb
  | cons a as ih =>
    simp only [algSegs, List.mem_cons, List.mem_append] at hb
    rcases hb with rfl | hb | hb
    · exact ⟨0, a, rfl, Or.inl rfl⟩
    · split_ifs at hb with h
      · simp at hb
      · simp only [List.mem_singleton] at hb; subst hb
        exact ⟨0, a, rfl, Or.inr ⟨by simpa using h, rfl⟩⟩
    · obtain ⟨j, a', hj, h⟩ := ih hb
      refine ⟨j + 1, a', by simpa using hj, ?_⟩
      rwa [show i + (j + 1) = i + 1 + j by omega]

theorem seg_CJ {f : File K} {b : Seg K} (hb : b ∈ allSegs f) (hl : b.letter = 'C' ∨ b.letter = 'J') :
    b ∈ algSegs f 0 (cnames f) := by
  simp only [allSegs, List.mem_append] at hb
  rcases hb with hb | hb | hb | hb | hb
  · rcases letters_varSegs f b hb with h | h <;> rw [h] at hl <;> simp at hl
  · rw [letters_rngSegs f b hb] at hl; simp at hl
  · exact hb
  · rw [letters_logSegs f _ _ b hb] at hl; simp at hl
  · rcases letters_objSegs f b hb with h | h <;> rw [h] at hl <;> simp at hl

theorem mem_printGraph_var {f : File K} {g : List (Tok K)} {i : Nat} :
    Line.var i ∈ printGraph f g ↔ ∃ n, Tok.v n ∈ g ∧ varIndex f n = i := by
  cases g with
  | nil => simp [printGraph]
  | cons t ts =>
    have : printGraph f (t :: ts) = (t :: ts).map (printTok f) := rfl
    rw [this, List.mem_map]
    constructor
    · rintro ⟨t', ht', he⟩
      cases t' <;> simp only [printTok, Line.var.injEq, reduceCtorEq] at he
      exact ⟨_, ht', he⟩
    · rintro ⟨n, hn, rfl⟩; exact ⟨_, hn, rfl⟩

theorem mem_map_var {f : File K} {g : List (Tok K)} {i : Nat} :
    Line.var i ∈ g.map (printTok f) ↔ ∃ n, Tok.v n ∈ g ∧ varIndex f n = i := by
  rw [List.mem_map]
  constructor
  · rintro ⟨t', ht', he⟩
    cases t' <;> simp only [printTok, Line.var.injEq, reduceCtorEq] at he
    exact ⟨_, ht', he⟩
  · rintro ⟨n, hn, rfl⟩; exact ⟨_, hn, rfl⟩

theorem count_letter_alg (f : File K) (i : Nat) (as : List (Alg K)) :
    (algSegs f i as).countP (fun s => s.letter == 'C') = as.length := by
  induction as generalizing i with
  | nil => rfl
  | cons a as ih =>
    simp only [algSegs]
    rw [List.countP_cons, List.countP_append, ih]
    by_cases h : a.jacobian.isEmpty = true
    · rw [if_pos h]; simp
    · rw [if_neg h]; simp

theorem count_letter_log (f : File K) (i : Nat) (gs : List (List (Tok K))) :
    (logSegs f i gs).countP (fun s => s.letter == 'L') = gs.length := by
  induction gs generalizing i with
  | nil => rfl
  | cons a as ih =>
    simp only [logSegs]
    rw [List.countP_cons, ih]
    simp

theorem countP_none (q : Seg K → Bool) (bs : List (Seg K)) (h : ∀ b ∈ bs, q b = false) :
    bs.countP q = 0 := by
  rw [List.countP_eq_zero]
  intro b hb; rw [h b hb]; simp

theorem count_C (f : File K) : (allSegs f).countP (fun s => s.letter == 'C') = f.cons.length := by
  unfold allSegs
  rw [List.countP_append, List.countP_append, List.countP_append, List.countP_append,
    countP_none _ (varSegs f) (fun b hb => by rcases letters_varSegs f b hb with h | h <;> simp [h]),
    countP_none _ (rngSegs f) (fun b hb => by simp [letters_rngSegs f b hb]),
    countP_none _ (logSegs f 0 f.logical) (fun b hb => by simp [letters_logSegs f _ _ b hb]),
    countP_none _ (objSegs f) (fun b hb => by rcases letters_objSegs f b hb with h | h <;> simp [h]),
    count_letter_alg, (cnames_perm f).length_eq]
  simp

theorem count_L (f : File K) : (allSegs f).countP (fun s => s.letter == 'L') = f.logical.length := by
  unfold allSegs
  rw [List.countP_append, List.countP_append, List.countP_append, List.countP_append,
    countP_none _ (varSegs f) (fun b hb => by rcases letters_varSegs f b hb with h | h <;> simp [h]),
    countP_none _ (rngSegs f) (fun b hb => by simp [letters_rngSegs f b hb]),
    countP_none _ (algSegs f 0 _) (fun b hb => by
      rcases letters_algSegs f _ _ b hb with h | h <;> simp [h]),
    countP_none _ (objSegs f) (fun b hb => by rcases letters_objSegs f b hb with h | h <;> simp [h]),
    count_letter_log]
  simp

/-- The nonlinear variables of the constraints are the first ones. -/
theorem nonlinear_first {f : File K} (ho : f.objGraph = []) {i : Nat} {v : Var K}
    (h : (ordered f)[i]? = some v) : i < hdrNum (printFile f) 4 0 ↔ inNLCons f v.name = true := by
  have hh : hdrNum (printFile f) 4 0 = (clsV f true false).length + (clsV f true true).length := by
    simp [hdrNum_print, printHeader, lvcCount, lvbCount, cls_obj ho, Nat.add_comm]
  rw [hh]
  unfold ordered at h
  rw [List.getElem?_append] at h
  split_ifs at h with h1
  · have := (clsV_int h).2
    rw [this]; simp; omega
  · rw [List.getElem?_append] at h
    split_ifs at h with h2
    · have := (clsV_int h).2
      rw [this]; simp; omega
    · rw [List.getElem?_append] at h
      split_ifs at h with h3
      · have := (clsV_int h).2
        rw [this]; simp; omega
      · have := (clsV_int h).2
        rw [this]; simp; omega

theorem inNLCons_iff (f : File K) (n : String) :
    inNLCons f n = true ↔ (∃ a ∈ f.cons, Tok.v n ∈ a.graph) ∨ ∃ g ∈ f.logical, Tok.v n ∈ g := by
  have hv : ∀ g : List (Tok K), g.any (isVar n) = true ↔ Tok.v n ∈ g := by
    intro g
    rw [List.any_eq_true]
    constructor
    · rintro ⟨t, ht, he⟩
      cases t <;> simp only [isVar, beq_iff_eq, Bool.false_eq_true] at he
      subst he; exact ht
    · intro h; exact ⟨_, h, by simp [isVar]⟩
  simp only [inNLCons, Bool.or_eq_true, List.any_eq_true]
  simp only [← List.any_eq_true, hv]

end MZ.NL
