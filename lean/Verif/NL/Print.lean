import Verif.NL.Collect
import Mathlib.Data.List.Perm.Basic

/-!
# Reading the printed file
-/

namespace MZ.NL

variable {K : Type} [Field K] [LinearOrder K] [IsStrictOrderedRing K] [FloorRing K]

/-! ## Segments -/

/-- The lines of a list of segments. -/
def unseg (bs : List (Seg K)) : List (Line K) :=
  bs.flatMap fun b => Line.seg b.letter b.nums :: b.body

theorem cut_body (ls rest : List (Line K)) (h : ∀ l ∈ ls, l.isSeg = false) :
    cut (ls ++ rest) = (ls ++ (cut rest).1, (cut rest).2) := by
  induction ls with
  | nil => rfl
  | cons l ls ih =>
    have hl := h l (by simp)
    have hi := ih (fun l' hl' => h l' (by simp [hl']))
    simp only [cut, List.cons_append, List.foldr_cons] at hi ⊢
    rw [hi]
    cases l <;> simp_all [Line.isSeg]

theorem cut_unseg (bs : List (Seg K)) (h : ∀ b ∈ bs, ∀ l ∈ b.body, l.isSeg = false) :
    cut (unseg bs) = ([], bs) := by
  induction bs with
  | nil => rfl
  | cons b bs ih =>
    have hi := ih (fun b' hb' => h b' (by simp [hb']))
    have : unseg (b :: bs) = Line.seg b.letter b.nums :: (b.body ++ unseg bs) := by simp [unseg]
    rw [this]
    have hc := cut_body b.body (unseg bs) (h b (by simp))
    rw [hi] at hc
    simp only [cut, List.foldr_cons] at hc ⊢
    rw [hc]
    simp

theorem cut_file (hd : List (Line K)) (bs : List (Seg K)) (hh : ∀ l ∈ hd, l.isSeg = false)
    (h : ∀ b ∈ bs, ∀ l ∈ b.body, l.isSeg = false) : cut (hd ++ unseg bs) = (hd, bs) := by
  rw [cut_body _ _ hh, cut_unseg _ h]; simp

/-! ## The printed file as segments -/

/-- The segments of the algebraic constraints. -/
def algSegs (f : File K) : Nat → List (Alg K) → List (Seg K)
  | _, [] => []
  | i, a :: as => ⟨'C', [i], printGraph f a.graph⟩ ::
      ((if a.jacobian.isEmpty then [] else [⟨'J', [i, a.jacobian.length], printTerms f a.jacobian⟩]) ++
        algSegs f (i + 1) as)

/-- The segments of the logical constraints. -/
def logSegs (f : File K) : Nat → List (List (Tok K)) → List (Seg K)
  | _, [] => []
  | i, g :: gs => ⟨'L', [i], g.map (printTok f)⟩ :: logSegs f (i + 1) gs

/-- The segments of the variables. -/
def varSegs (f : File K) : List (Seg K) :=
  if f.vars.length > 1 then
    [⟨'k', [f.vars.length - 1], printCounts f 0 ((vnames f).take (f.vars.length - 1))⟩,
     ⟨'b', [], printBounds f (vnames f)⟩]
  else []

/-- The segment of the ranges. -/
def rngSegs (f : File K) : List (Seg K) :=
  if (cnames f).isEmpty then [] else [⟨'r', [], (cnames f).map (fun a => printBound a.range)⟩]

/-- The segments of the objective. -/
def objSegs (f : File K) : List (Seg K) :=
  match f.sense with
  | .undef => []
  | .satisfy => [⟨'O', [0, 0], [.num 0]⟩]
  | s => ⟨'O', [0, if s = .maximize then 1 else 0], printGraph f f.objGraph⟩ ::
      (if f.gradient.isEmpty then [] else [⟨'G', [0, f.gradient.length], printTerms f f.gradient⟩])

/-- All segments of the file. -/
def allSegs (f : File K) : List (Seg K) :=
  varSegs f ++ (rngSegs f ++ (algSegs f 0 (cnames f) ++ (logSegs f 0 f.logical ++ objSegs f)))

theorem unseg_append (a b : List (Seg K)) : unseg (a ++ b) = unseg a ++ unseg b := by
  simp [unseg]

theorem printAlgs_eq (f : File K) (i : Nat) (as : List (Alg K)) :
    printAlgs f i as = unseg (algSegs f i as) := by
  induction as generalizing i with
  | nil => rfl
  | cons a as ih =>
    simp only [printAlgs, printAlg, algSegs, ih]
    split_ifs <;> simp [unseg]

theorem printLogicals_eq (f : File K) (i : Nat) (gs : List (List (Tok K))) :
    printLogicals f i gs = unseg (logSegs f i gs) := by
  induction gs generalizing i with
  | nil => rfl
  | cons g gs ih => simp [printLogicals, printLogical, logSegs, ih, unseg]

theorem printObjective_eq (f : File K) : printObjective f = unseg (objSegs f) := by
  unfold printObjective objSegs
  cases f.sense
  · rfl
  · rfl
  · dsimp only; split_ifs <;> simp [unseg]
  · dsimp only; split_ifs <;> simp [unseg]

theorem printFile_eq (f : File K) : printFile f = printHeader f ++ unseg (allSegs f) := by
  unfold printFile allSegs
  rw [unseg_append, unseg_append, unseg_append, unseg_append, ← printAlgs_eq, ← printLogicals_eq,
    ← printObjective_eq]
  have h1 : (if f.vars.length > 1 then
      (Line.seg 'k' [f.vars.length - 1] :: printCounts f 0 ((vnames f).take (f.vars.length - 1))) ++
      (Line.seg 'b' [] :: printBounds f (vnames f)) else []) = unseg (varSegs f) := by
    unfold varSegs
    split_ifs <;> simp [unseg]
  have h2 : (if (cnames f).isEmpty then [] else Line.seg 'r' [] :: (cnames f).map (fun a => printBound a.range)) =
      unseg (rngSegs f) := by
    unfold rngSegs
    split_ifs <;> simp [unseg]
  rw [h1, h2]
  simp only [List.append_assoc]

theorem isSeg_tok (f : File K) (t : Tok K) : (printTok f t).isSeg = false := by
  cases t <;> rfl

theorem isSeg_bound (b : Bound K) : (printBound b).isSeg = false := by
  cases b <;> rfl

theorem isSeg_graph (f : File K) (g : List (Tok K)) : ∀ l ∈ printGraph f g, l.isSeg = false := by
  intro l hl
  unfold printGraph at hl
  cases g with
  | nil => simp only [List.mem_singleton] at hl; subst hl; rfl
  | cons t ts =>
    simp only [List.mem_cons, List.mem_map] at hl
    rcases hl with rfl | ⟨t', -, rfl⟩ <;> exact isSeg_tok f _

theorem isSeg_terms (f : File K) (js : List (String × K)) : ∀ l ∈ printTerms f js, l.isSeg = false := by
  intro l hl
  simp only [printTerms, List.mem_map] at hl
  obtain ⟨e, -, rfl⟩ := hl
  rfl

theorem isSeg_counts (f : File K) (acc : Nat) (ss : List String) :
    ∀ l ∈ printCounts f acc ss, l.isSeg = false := by
  induction ss generalizing acc with
  | nil => simp [printCounts]
  | cons s ss ih =>
    intro l hl
    simp only [printCounts, List.mem_cons] at hl
    rcases hl with rfl | hl
    · rfl
    · exact ih _ l hl

theorem isSeg_algSegs (f : File K) (i : Nat) (as : List (Alg K)) :
    ∀ b ∈ algSegs f i as, ∀ l ∈ b.body, l.isSeg = false := by
  induction as generalizing i with
  | nil => simp [algSegs]
  | cons a as ih =>
    intro b hb
    simp only [algSegs, List.mem_cons, List.mem_append] at hb
    rcases hb with rfl | hb | hb
    · exact isSeg_graph f _
    · split_ifs at hb
      · simp at hb
      · simp only [List.mem_singleton] at hb; subst hb; exact isSeg_terms f _
    · exact ih _ b hb

theorem isSeg_logSegs (f : File K) (i : Nat) (gs : List (List (Tok K))) :
    ∀ b ∈ logSegs f i gs, ∀ l ∈ b.body, l.isSeg = false := by
  induction gs generalizing i with
  | nil => simp [logSegs]
  | cons g gs ih =>
    intro b hb
    simp only [logSegs, List.mem_cons] at hb
    rcases hb with rfl | hb
    · intro l hl
      obtain ⟨t, -, rfl⟩ := List.mem_map.1 hl
      exact isSeg_tok f t
    · exact ih _ b hb

theorem isSeg_objSegs (f : File K) : ∀ b ∈ objSegs f, ∀ l ∈ b.body, l.isSeg = false := by
  intro b hb
  unfold objSegs at hb
  split at hb
  · simp at hb
  · simp only [List.mem_singleton] at hb; subst hb
    intro l hl; simp only [List.mem_singleton] at hl; subst hl; rfl
  · simp only [List.mem_cons] at hb
    rcases hb with rfl | hb
    · exact isSeg_graph f _
    · split_ifs at hb
      · simp at hb
      · simp only [List.mem_singleton] at hb; subst hb; exact isSeg_terms f _

theorem cut_printFile (f : File K) : cut (printFile f) = (printHeader f, allSegs f) := by
  rw [printFile_eq]
  refine cut_file _ _ ?_ ?_
  · intro l hl
    simp only [printHeader, List.mem_cons, List.not_mem_nil, or_false] at hl
    rcases hl with rfl | rfl | rfl | rfl | rfl | rfl | rfl | rfl | rfl | rfl <;> rfl
  · intro b hb
    simp only [allSegs, List.mem_append] at hb
    rcases hb with hb | hb | hb | hb | hb
    · unfold varSegs at hb
      split_ifs at hb
      · simp only [List.mem_cons, List.not_mem_nil, or_false] at hb
        rcases hb with rfl | rfl
        · exact isSeg_counts f _ _
        · intro l hl
          simp only [printBounds, List.mem_map] at hl
          obtain ⟨s, -, rfl⟩ := hl
          exact isSeg_bound _
      · simp at hb
    · unfold rngSegs at hb
      split_ifs at hb
      · simp at hb
      · simp only [List.mem_singleton] at hb; subst hb
        intro l hl
        obtain ⟨a, -, rfl⟩ := List.mem_map.1 hl
        exact isSeg_bound _
    · exact isSeg_algSegs f _ _ b hb
    · exact isSeg_logSegs f _ _ b hb
    · exact isSeg_objSegs f b hb

theorem segs_printFile (f : File K) : segs (printFile f) = allSegs f := by
  unfold segs; rw [cut_printFile]

/-! ## The letters -/

theorem letters_algSegs (f : File K) (i : Nat) (as : List (Alg K)) :
    ∀ b ∈ algSegs f i as, b.letter = 'C' ∨ b.letter = 'J' := by
  induction as generalizing i with
  | nil => simp [algSegs]
  | cons a as ih =>
    intro b hb
    simp only [algSegs, List.mem_cons, List.mem_append] at hb
    rcases hb with rfl | hb | hb
    · exact Or.inl rfl
    · split_ifs at hb
      · simp at hb
      · simp only [List.mem_singleton] at hb; subst hb; exact Or.inr rfl
    · exact ih _ b hb

theorem letters_logSegs (f : File K) (i : Nat) (gs : List (List (Tok K))) :
    ∀ b ∈ logSegs f i gs, b.letter = 'L' := by
  induction gs generalizing i with
  | nil => simp [logSegs]
  | cons g gs ih =>
    intro b hb
    simp only [logSegs, List.mem_cons] at hb
    rcases hb with rfl | hb
    · rfl
    · exact ih _ b hb

theorem letters_varSegs (f : File K) : ∀ b ∈ varSegs f, b.letter = 'k' ∨ b.letter = 'b' := by
  intro b hb
  unfold varSegs at hb
  split_ifs at hb
  · simp only [List.mem_cons, List.not_mem_nil, or_false] at hb
    rcases hb with rfl | rfl <;> simp
  · simp at hb

theorem letters_rngSegs (f : File K) : ∀ b ∈ rngSegs f, b.letter = 'r' := by
  intro b hb
  unfold rngSegs at hb
  split_ifs at hb
  · simp at hb
  · simp only [List.mem_singleton] at hb; subst hb; rfl

theorem letters_objSegs (f : File K) : ∀ b ∈ objSegs f, b.letter = 'O' ∨ b.letter = 'G' := by
  intro b hb
  unfold objSegs at hb
  split at hb
  · simp at hb
  · simp only [List.mem_singleton] at hb; subst hb; exact Or.inl rfl
  · simp only [List.mem_cons] at hb
    rcases hb with rfl | hb
    · exact Or.inl rfl
    · split_ifs at hb
      · simp at hb
      · simp only [List.mem_singleton] at hb; subst hb; exact Or.inr rfl

theorem mem_algNums (f : File K) (i : Nat) (as : List (Alg K)) :
    ∀ b ∈ algSegs f i as, ∃ j, i ≤ j ∧ b.nums.head? = some j := by
  induction as generalizing i with
  | nil => simp [algSegs]
  | cons a as ih =>
    intro b hb
    simp only [algSegs, List.mem_cons, List.mem_append] at hb
    rcases hb with rfl | hb | hb
    · exact ⟨i, le_refl _, rfl⟩
    · split_ifs at hb
      · simp at hb
      · simp only [List.mem_singleton] at hb; subst hb; exact ⟨i, le_refl _, rfl⟩
    · obtain ⟨j, hj, h⟩ := ih _ b hb
      exact ⟨j, by omega, h⟩

/-- Constraint `j` is found where it was printed. -/
theorem find_algSegs (f : File K) (i j : Nat) (as : List (Alg K)) (a : Alg K) (h : as[j]? = some a) :
    (algSegs f i as).find? (fun s => s.letter == 'C' && s.nums == [i + j]) =
      some ⟨'C', [i + j], printGraph f a.graph⟩ := by
  induction as generalizing i j with
  | nil => simp at h
  | cons b as ih =>
    cases j with
    | zero =>
      simp only [List.getElem?_cons_zero, Option.some.injEq] at h; subst h
      simp [algSegs]
    | succ j =>
      simp only [List.getElem?_cons_succ] at h
      have := ih (i + 1) j h
      rw [show i + 1 + j = i + (j + 1) by omega] at this
      simp only [algSegs]
      rw [List.find?_cons_of_neg (by simp), List.find?_append]
      rw [List.find?_eq_none.2 (by
        intro x hx
        split_ifs at hx
        · simp at hx
        · simp only [List.mem_singleton] at hx; subst hx; simp)]
      simpa using this

/-- The linear part of constraint `j` is found where it was printed. -/
theorem filter_algSegs (f : File K) (i j : Nat) (as : List (Alg K)) (a : Alg K) (h : as[j]? = some a)
    (p : Nat → K) :
    (((algSegs f i as).filter fun s => s.letter == 'J' && s.nums.head? == some (i + j)).map
      fun s => linVal p s.body).sum = linVal p (printTerms f a.jacobian) := by
  induction as generalizing i j with
  | nil => simp at h
  | cons b as ih =>
    cases j with
    | zero =>
      simp only [List.getElem?_cons_zero, Option.some.injEq] at h; subst h
      have hrest : ((algSegs f (i + 1) as).filter
          fun s => s.letter == 'J' && s.nums.head? == some (i + 0)) = [] := by
        rw [List.filter_eq_nil_iff]
        intro x hx
        obtain ⟨k, hk, he⟩ := mem_algNums f _ _ x hx
        simp only [he, Bool.and_eq_true, beq_iff_eq, Option.some.injEq, not_and]
        intro _; omega
      simp only [algSegs]
      rw [List.filter_cons_of_neg (by simp), List.filter_append, hrest]
      split_ifs with hj
      · have : b.jacobian = [] := by simpa using hj
        simp [this, printTerms, linVal]
      · simp
    | succ j =>
      simp only [List.getElem?_cons_succ] at h
      have := ih (i + 1) j h
      rw [show i + 1 + j = i + (j + 1) by omega] at this
      simp only [algSegs]
      rw [List.filter_cons_of_neg (by simp), List.filter_append]
      have h0 : ((if b.jacobian.isEmpty = true then ([] : List (Seg K))
          else [⟨'J', [i, b.jacobian.length], printTerms f b.jacobian⟩]).filter
          fun s => s.letter == 'J' && s.nums.head? == some (i + (j + 1))) = [] := by
        rw [List.filter_eq_nil_iff]
        intro x hx
        split_ifs at hx
        · simp at hx
        · simp only [List.mem_singleton] at hx; subst hx; simp
      rw [h0, List.nil_append, this]

theorem filter_none (q : Seg K → Bool) (bs : List (Seg K)) (h : ∀ b ∈ bs, q b = false) :
    bs.filter q = [] := by
  rw [List.filter_eq_nil_iff]
  intro b hb; rw [h b hb]; simp

theorem find_none (q : Seg K → Bool) (bs : List (Seg K)) (h : ∀ b ∈ bs, q b = false) :
    bs.find? q = none := by
  rw [List.find?_eq_none]
  intro b hb; rw [h b hb]; simp

theorem bodyVal_printFile (f : File K) (F : Funs K) (p : Nat → K) (j : Nat) (a : Alg K)
    (h : (cnames f)[j]? = some a) :
    bodyVal F p (printFile f) j =
      (evalExpr F p (printGraph f a.graph)).map fun v => v + linVal p (printTerms f a.jacobian) := by
  unfold bodyVal
  rw [segs_printFile]
  have hfind : (allSegs f).find? (fun s => s.letter == 'C' && s.nums == [j]) =
      some ⟨'C', [j], printGraph f a.graph⟩ := by
    unfold allSegs
    rw [List.find?_append, find_none _ (varSegs f) (fun b hb => by
        rcases letters_varSegs f b hb with h | h <;> simp [h]), Option.none_or,
      List.find?_append, find_none _ (rngSegs f) (fun b hb => by simp [letters_rngSegs f b hb]),
      Option.none_or, List.find?_append]
    have := find_algSegs f 0 j (cnames f) a h
    rw [Nat.zero_add] at this
    rw [this]; rfl
  have hfil : ((allSegs f).filter fun s => s.letter == 'J' && s.nums.head? == some j) =
      (algSegs f 0 (cnames f)).filter fun s => s.letter == 'J' && s.nums.head? == some j := by
    unfold allSegs
    rw [List.filter_append, List.filter_append, List.filter_append, List.filter_append,
      filter_none _ (varSegs f) (fun b hb => by rcases letters_varSegs f b hb with h | h <;> simp [h]),
      filter_none _ (rngSegs f) (fun b hb => by simp [letters_rngSegs f b hb]),
      filter_none _ (logSegs f 0 f.logical) (fun b hb => by simp [letters_logSegs f _ _ b hb]),
      filter_none _ (objSegs f) (fun b hb => by rcases letters_objSegs f b hb with h | h <;> simp [h])]
    simp
  rw [hfind, hfil]
  have := filter_algSegs f 0 j (cnames f) a h p
  rw [Nat.zero_add] at this
  simp only [Option.bind_some, this]

/-! ## Expressions -/

/-- The values of the variables, by position, are those of the assignment. -/
def Agrees (f : File K) (p : Nat → K) (s : String → K) : Prop :=
  ∀ v ∈ f.vars, p (varIndex f v.name) = s v.name

theorem foldr_print {f : File K} {p : Nat → K} {s : String → K} (F : Funs K) (g : List (Tok K))
    (h : ∀ n, Tok.v n ∈ g → p (varIndex f n) = s n) (st : Option (List K)) :
    (g.map (printTok f)).foldr (evalLine F p) st = g.foldr (evalT F s) st := by
  induction g with
  | nil => rfl
  | cons t g ih =>
    simp only [List.map_cons, List.foldr_cons]
    rw [ih (fun n hn => h n (by simp [hn]))]
    cases t with
    | v n =>
      have := h n (by simp)
      simp [evalLine, evalT, printTok, this]
    | _ => rfl

theorem evalExpr_print {f : File K} {p : Nat → K} {s : String → K} (F : Funs K) (g : List (Tok K))
    (h : ∀ n, Tok.v n ∈ g → p (varIndex f n) = s n) :
    evalExpr F p (g.map (printTok f)) = evalG F s g := by
  unfold evalExpr evalG
  rw [foldr_print F g h]
  rfl

theorem evalExpr_graph {f : File K} {p : Nat → K} {s : String → K} (F : Funs K) (g : List (Tok K))
    (h : ∀ n, Tok.v n ∈ g → p (varIndex f n) = s n) :
    evalExpr F p (printGraph f g) = evalG F s (if g.isEmpty then [Tok.n 0] else g) := by
  cases g with
  | nil => rfl
  | cons t ts => exact evalExpr_print F (t :: ts) h

theorem linVal_print {f : File K} {p : Nat → K} {s : String → K} (js : List (String × K))
    (h : ∀ e ∈ js, p (varIndex f e.1) = s e.1) : linVal p (printTerms f js) = jacVal s js := by
  unfold linVal printTerms jacVal
  rw [List.map_map]
  congr 1
  refine List.map_congr_left fun e he => ?_
  simp [h e he]

/-- What `closed` says. -/
theorem closed_iff {f : File K} (h : closed f = true) :
    (∀ a ∈ f.cons, (∀ n, Tok.v n ∈ a.graph → ∃ v ∈ f.vars, v.name = n) ∧
      ∀ e ∈ a.jacobian, ∃ v ∈ f.vars, v.name = e.1) ∧
    (∀ g ∈ f.logical, ∀ n, Tok.v n ∈ g → ∃ v ∈ f.vars, v.name = n) ∧
    ∀ e ∈ f.gradient, ∃ v ∈ f.vars, v.name = e.1 := by
  simp only [closed, Bool.and_eq_true, List.all_eq_true, List.any_eq_true, beq_iff_eq] at h
  obtain ⟨⟨⟨h1, h2⟩, -⟩, h4⟩ := h
  refine ⟨fun a ha => ⟨fun n hn => ?_, (h1 a ha).2⟩, fun g hg n hn => ?_, h4⟩
  · simpa using (h1 a ha).1 _ hn
  · simpa using h2 g hg _ hn

end MZ.NL
