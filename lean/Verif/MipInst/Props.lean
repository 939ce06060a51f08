import Verif.MipInst.Decl
import Mathlib.Tactic.FinCases

/-! # C91: the interface to MIP solvers -/

namespace MZ
namespace MipInst

/-! ## The problem -/

theorem process_spec {inf : Rat} {ds : List Decl} (obj : Option Nat) {cs : List Call} (hw : WellFormed inf ds)
    (hc : ∀ c ∈ cs, Covered inf (fun n => ∃ d ∈ ds, d.id = n) c) : ∃ m₀ m, processFlatZinc inf ds obj cs = .ok m ∧ Inv inf ds obj ds m₀ ∧
      Step inf m₀ m (fun σ => ∀ c ∈ cs, c.Holds σ) := by
  obtain ⟨m₀, h1, h2⟩ := declareAll_spec hw ds [] Mip.empty rfl (Inv.empty inf ds obj)
  obtain ⟨m, h3, h4⟩ := postAll_step inf cs m₀ h2.toGood (fun c h => by
    have := hc c h
    refine ⟨this.usual, fun v hv n hn => (h2.named n).mpr (this.vars v hv n hn), this.lits, this.enforced⟩)
  exact ⟨m₀, m, by simp only [processFlatZinc, h1, Res.ok_bind, h3], h2, h4⟩

theorem Sem_congr {σ τ : Nat → Rat} {c : Call} (h : ∀ v ∈ c.args, ∀ n, .var n ∈ v.list → σ n = τ n) : c.Holds σ ↔ c.Holds τ := by
  unfold Call.Holds
  have : c.args.map (Val.value σ) = c.args.map (Val.value τ) := by
    apply List.map_congr_left
    intro v hv
    have hv' := h v hv
    have ha : ∀ a : Arg, a ∈ v.list → a.value σ = a.value τ := by
      intro a ha
      cases a with
      | var n => exact hv' n ha
      | lit w => rfl
    cases v with
    | one a => simp only [Val.value, ha a (by simp [Val.list])]
    | arr l =>
      simp only [Val.value, V.arr.injEq]
      exact List.map_congr_left ha
  rw [this]

/-- The problem given to the solver has the solutions of the FlatZinc model: every declared variable has a column, every solution of the problem gives
values that satisfy all declarations and constraints, every solution of the model is given by a solution of the problem, and the objective
function is the value of the variable of the objective.  Missing: see the theorems below that end with `_fails`. -/
theorem _root_.MZ.C91_problem_partial (inf : Rat) (ds : List Decl) (obj : Option Nat) (cs : List Call) (hw : WellFormed inf ds)
    (hc : ∀ c ∈ cs, Covered inf (fun n => ∃ d ∈ ds, d.id = n) c) : ∃ m, processFlatZinc inf ds obj cs = .ok m ∧
      (∀ d ∈ ds, ∃ k, m.names d.id = some k ∧ k < m.cols.length) ∧
      (∀ x, m.Feasible inf x → Solution ds cs (m.values x)) ∧
      (∀ σ, Solution ds cs σ → ∃ x, m.Feasible inf x ∧ ∀ d ∈ ds, m.values x d.id = σ d.id) ∧
      (∀ o, obj = some o → ∀ x, m.objective x = m.values x o) ∧ (obj = none → ∀ x, m.objective x = 0) := by
  obtain ⟨m₀, m, h, hi, hs⟩ := process_spec obj hw hc
  have hv : ∀ x, m.values x = m₀.values x := by
    intro x
    unfold Mip.values
    rw [hs.names]
  refine ⟨m, h, ?_, ?_, ?_, ?_, ?_⟩
  · intro d hd
    obtain ⟨k, hk⟩ := (hi.named d.id).mpr ⟨d, hd, rfl⟩
    exact ⟨k, by rw [hs.names, hk], (hi.lt _ _ hk).trans_le hs.len⟩
  · intro x hx
    obtain ⟨h1, h2⟩ := hs.sound x hx
    rw [hv]
    exact ⟨(hi.feasible x).mp h1, h2⟩
  · rintro σ ⟨hσ, hσc⟩
    obtain ⟨x, h1, h2⟩ := hi.lift hσ
    have hcs : ∀ c ∈ cs, c.Holds (m₀.values x) := by
      intro c hcm
      refine (Sem_congr fun v hv' n hn => ?_).mpr (hσc c hcm)
      obtain ⟨d, hd, rfl⟩ := (hc c hcm).vars v hv' n hn
      exact h2 d hd
    obtain ⟨y, h3, h4⟩ := hs.complete hi.toGood x h1 hcs
    refine ⟨y, h4, fun d hd => ?_⟩
    rw [hv, ← values_congr hi.toGood h3]
    exact h2 d hd
  · intro o ho x
    rw [hs.obj, hi.objective, ho, hv]
    rfl
  · intro ho x
    rw [hs.obj, hi.objective, ho]
    rfl

/-- What is reported is true of the FlatZinc model, if the answer of the solver is true of its problem: an optimal solution is a solution and no
solution is better, a solution is a solution, and there is none if the problem is reported unsatisfiable.  Missing: models without variables. -/
theorem _root_.MZ.C91_status_partial (inf : Rat) (ds : List Decl) (obj : Option Nat) (isMax : Bool) (cs : List Call) (hw : WellFormed inf ds)
    (hc : ∀ c ∈ cs, Covered inf (fun n => ∃ d ∈ ds, d.id = n) c) (hne : ds ≠ []) (hobj : ∀ o, obj = some o → ∃ d ∈ ds, d.id = o) (m : Mip)
    (hm : processFlatZinc inf ds obj cs = .ok m) (answer : Status) (x : Nat → Rat) (ha : Correct inf m (objSense isMax) answer x) :
    match solve m obj.isSome answer with
    | .opt => Solution ds cs (m.values x) ∧ ∃ o, obj = some o ∧ ∀ σ, Solution ds cs σ →
        if isMax then σ o ≤ m.values x o else m.values x o ≤ σ o
    | .sat => Solution ds cs (m.values x)
    | .unsat => ∀ σ, ¬ Solution ds cs σ
    | _ => True := by
  obtain ⟨m', h, h1, h2, h3, h4, h5⟩ := MZ.C91_problem_partial inf ds obj cs hw hc
  rw [hm] at h
  simp only [Res.ok.injEq] at h
  subst h
  unfold solve
  by_cases hu : m.unsat = true
  · rw [if_pos hu]
    intro σ hσ
    obtain ⟨y, hy, _⟩ := h3 σ hσ
    rw [hy.sat] at hu
    simp at hu
  · rw [if_neg hu]
    have hlen : m.cols.length ≠ 0 := by
      cases ds with
      | nil => exact absurd rfl hne
      | cons d l =>
        obtain ⟨k, _, hk⟩ := h1 d (by simp)
        omega
    rw [if_pos hlen]
    cases answer with
    | opt =>
      obtain ⟨i1, i2⟩ := ha.opt rfl
      cases ho : obj with
      | none => exact h2 x i1
      | some o =>
        refine ⟨h2 x i1, o, rfl, fun σ hσ => ?_⟩
        obtain ⟨y, hy, hyv⟩ := h3 σ hσ
        obtain ⟨d, hd, rfl⟩ := hobj o ho
        have := i2 y hy
        rw [h4 _ ho, h4 _ ho, hyv d hd] at this
        cases isMax with
        | true => exact this.1 rfl
        | false => exact this.2 rfl
    | sat => exact h2 x (ha.sat rfl)
    | unsat =>
      intro σ hσ
      obtain ⟨y, hy, _⟩ := h3 σ hσ
      exact ha.unsat rfl y hy
    | unbnd => trivial
    | unsatOrUnbnd => trivial
    | unknown => trivial
    | error => trivial

/-! ## Values -/

theorem llround_near {v : Rat} {z : Int} (h : |v - z| < 1 / 2) : llround v = z := by
  rw [abs_lt] at h
  unfold llround
  split_ifs with h0
  · rw [Int.floor_eq_iff]
    constructor <;> linarith [h.1, h.2]
  · have : ⌊-v + 1 / 2⌋ = -z := by
      rw [Int.floor_eq_iff]
      push_cast
      constructor <;> linarith [h.1, h.2]
    rw [this]
    omega

/-- Values of integers and Booleans are those of the solution the values of the columns approximate: solvers answer up to a tolerance, and everything
less than one half away from a solution is read as that solution.  Floats are what the solver answers. -/
theorem _root_.MZ.C91_values (inf : Rat) (ds : List Decl) (obj : Option Nat) (cs : List Call) (hw : WellFormed inf ds)
    (hc : ∀ c ∈ cs, Covered inf (fun n => ∃ d ∈ ds, d.id = n) c) (m : Mip) (hm : processFlatZinc inf ds obj cs = .ok m) (x y : Nat → Rat)
    (hy : m.Feasible inf y) (hxy : ∀ j, |x j - y j| < 1 / 2) (d : Decl) (hd : d ∈ ds) :
    solutionValue m d.ty x d.id = .ok (if d.ty = .real then m.values x d.id else m.values y d.id) := by
  obtain ⟨m', h, h1, h2, -⟩ := MZ.C91_problem_partial inf ds obj cs hw hc
  rw [hm] at h
  simp only [Res.ok.injEq] at h
  subst h
  obtain ⟨k, hk, _⟩ := h1 d hd
  have hs := (h2 y hy).1 d hd
  have hvx : m.values x d.id = x k := by simp [Mip.values, hk]
  have hvy : m.values y d.id = y k := by simp [Mip.values, hk]
  unfold solutionValue
  rw [hk, hvx, hvy]
  cases ht : d.ty with
  | real => simp
  | int =>
    obtain ⟨z, hz⟩ := hs.int ht
    rw [hvy] at hz
    have : llround (x k) = z := llround_near (hz ▸ hxy k)
    simp [this, hz]
  | binary =>
    have hb := hs.bool ht
    rw [hvy] at hb
    rcases hb with hb | hb
    · have : llround (x k) = 0 := llround_near (by simpa [hb] using hxy k)
      simp [this, hb]
    · have : llround (x k) = 1 := llround_near (by simpa [hb] using hxy k)
      simp [this, hb]

/-! ## Rows -/

/-- A row has every column at most once, and the same value as the terms of the constraint. -/
theorem _root_.MZ.C91_duplicates (l : List (Nat × Rat)) :
    ((removeDuplicates l).map Prod.fst).Nodup ∧ ∀ x, evalTerms x (removeDuplicates l) = evalTerms x l :=
  ⟨removeDuplicates_nodup l, (removeDuplicates_spec l).1⟩

example : removeDuplicates [(0, 2), (1, 1), (0, 3)] = [(0, 5), (1, 1)] := by
  simp [removeDuplicates, addTerm]
  norm_num

/-- A row is a user cut or lazy exactly if the constraint has the annotation, and an ordinary row if it has neither. -/
theorem _root_.MZ.C91_mask (c : Call) : ((mask c).testBit 0 = true ↔ c.userCut = false ∧ c.isLazy = false) ∧ ((mask c).testBit 1 = true ↔ c.userCut = true) ∧
    ((mask c).testBit 2 = true ↔ c.isLazy = true) := by
  unfold mask
  cases c.userCut <;> cases c.isLazy <;> decide

/-! ## Annotations -/

theorem searches_flatten : ∀ anns, searches (flattenSearch anns) = searches anns
  | [] => by simp [flattenSearch]
  | .seq l :: r => by
    have happ : ∀ a b, searches (a ++ b) = searches a ++ searches b := by
      intro a b
      induction a with
      | nil => simp [searches]
      | cons x a ih => cases x <;> simp [searches, ih]
    rw [flattenSearch, happ, searches_flatten l, searches_flatten r, searches]
  | .search xs a b :: r => by simp [flattenSearch, searches, searches_flatten r]
  | .warm xs vs :: r => by simp [flattenSearch, searches, searches_flatten r]
  | .other :: r => by simp [flattenSearch, searches, searches_flatten r]

theorem flatten_noSeq : ∀ anns, ∀ a ∈ flattenSearch anns, ∀ l, a ≠ .seq l
  | [], a, h, _ => by simp [flattenSearch] at h
  | .seq l :: r, a, h, l' => by
    rw [flattenSearch, List.mem_append] at h
    exact h.elim (fun h => flatten_noSeq l a h l') (fun h => flatten_noSeq r a h l')
  | .search xs p q :: r, a, h, l' => by
    rw [flattenSearch] at h
    · rcases List.mem_cons.mp h with rfl | h
      · simp
      · exact flatten_noSeq r a h l'
    · simp
  | .warm xs vs :: r, a, h, l' => by
    rw [flattenSearch] at h
    · rcases List.mem_cons.mp h with rfl | h
      · simp
      · exact flatten_noSeq r a h l'
    · simp
  | .other :: r, a, h, l' => by
    rw [flattenSearch] at h
    · rcases List.mem_cons.mp h with rfl | h
      · simp
      · exact flatten_noSeq r a h l'
    · simp

theorem searchLoop_spec (m : Mip) : ∀ (l : List Ann) (s s' : Search), (∀ a ∈ l, ∀ l', a ≠ .seq l') → searchLoop m l s = .ok s' →
    ∃ css : List (List Nat), (searches l).map (fun e => columns m e.1) = css.map .ok ∧ s'.vars = s.vars ++ css.flatten ∧
      s'.pri = s.pri ++ (css.zipIdx.map (fun p => List.replicate p.1.length (s.priority - 1 - (p.2 : Int)))).flatten ∧
      s'.varSel = ((searches l).map (fun e => e.2.1)).reverse ++ s.varSel ∧ s'.valSel = ((searches l).map (fun e => e.2.2)).reverse ++ s.valSel ∧
      s'.priority = s.priority - (searches l).length
  | [], s, s', _, h => by
    simp only [searchLoop, Res.ok.injEq] at h
    subst h
    exact ⟨[], by simp [searches], by simp, by simp, by simp [searches], by simp [searches], by simp [searches]⟩
  | .search xs a b :: l, s, s', hs, h => by
    unfold searchLoop at h
    cases hc : columns m xs with
    | ok ks =>
      rw [hc] at h
      simp only [Res.ok_bind] at h
      obtain ⟨css, h1, h2, h3, h4, h5, h6⟩ := searchLoop_spec m l _ s' (fun a ha => hs a (by simp [ha])) h
      refine ⟨ks :: css, ?_, ?_, ?_, ?_, ?_, ?_⟩
      · simp only [searches, List.map_cons, h1, hc]
      · rw [h2]; simp
      · rw [h3]
        simp only [List.zipIdx_cons, List.map_cons, List.flatten_cons, List.append_assoc, Nat.cast_zero, sub_zero]
        congr 2
        conv_rhs => rw [List.zipIdx_eq_map_add, List.map_map]
        congr 1
        apply List.map_congr_left
        rintro ⟨p, i⟩ -
        simp only [Function.comp_apply]
        congr 1
        push_cast
        ring
      · rw [h4]; simp [searches]
      · rw [h5]; simp [searches]
      · rw [h6]; simp [searches]; ring
    | err => rw [hc] at h; simp at h
    | ub => rw [hc] at h; simp at h
  | .warm xs vs :: l, s, s', hs, h => by
    unfold searchLoop at h
    simpa only [searches] using searchLoop_spec m l s s' (fun a ha => hs a (by simp [ha])) h
  | .other :: l, s, s', hs, h => by
    unfold searchLoop at h
    simpa only [searches] using searchLoop_spec m l s s' (fun a ha => hs a (by simp [ha])) h
  | .seq l' :: l, s, s', hs, h => absurd rfl (hs _ (by simp) l')

/-- Search annotations become branching priorities: the variables are those of the annotations in the order they are written, all variables of one
annotation have the same priority, earlier annotations have higher ones, the last has 0, and the priority is the position of the strategies of
the annotation. -/
theorem _root_.MZ.C91_search (m : Mip) (anns : List Ann) (s : Search) (h : processSearch m anns = .ok s) :
    ∃ css : List (List Nat), (searches anns).map (fun e => columns m e.1) = css.map .ok ∧ s.vars = css.flatten ∧
      s.pri = (css.zipIdx.map (fun p => List.replicate p.1.length (((searches anns).length : Int) - 1 - (p.2 : Int)))).flatten ∧
      ∀ i e, (searches anns)[i]? = some e → s.varSel[(searches anns).length - 1 - i]? = some e.2.1 ∧ s.valSel[(searches anns).length - 1 - i]? = some e.2.2 := by
  unfold processSearch at h
  dsimp only at h
  cases hl : searchLoop m (flattenSearch anns) ⟨[], [], [], [], (flattenSearch anns).length⟩ with
  | ok s₁ =>
    rw [hl] at h
    simp only [Res.ok_bind, Res.ok.injEq] at h
    subst h
    obtain ⟨css, h1, h2, h3, h4, h5, h6⟩ := searchLoop_spec m _ _ _ (flatten_noSeq anns) hl
    rw [searches_flatten] at h1 h4 h5 h6
    dsimp only at h2 h3 h4 h5 h6
    refine ⟨css, h1, by simpa using h2, ?_, ?_⟩
    · dsimp only
      rw [h3, h6]
      simp only [List.nil_append, List.map_flatten, List.map_map]
      congr 1
      apply List.map_congr_left
      rintro ⟨p, i⟩ -
      simp only [Function.comp_apply, List.map_replicate]
      congr 1
      ring
    · intro i e he
      have hi := (List.getElem?_eq_some_iff.mp he).1
      dsimp only
      rw [h4, h5, List.append_nil, List.append_nil]
      constructor
      · rw [List.getElem?_reverse (by simp; omega)]
        simp only [List.length_map, List.getElem?_map]
        rw [show (searches anns).length - 1 - ((searches anns).length - 1 - i) = i by omega, he]
        rfl
      · rw [List.getElem?_reverse (by simp; omega)]
        simp only [List.length_map, List.getElem?_map]
        rw [show (searches anns).length - 1 - ((searches anns).length - 1 - i) = i by omega, he]
        rfl
  | err => rw [hl] at h; simp at h
  | ub => rw [hl] at h; simp at h

theorem warmPairs_spec (m : Mip) : ∀ xs vs : List Arg, (∀ n, .var n ∈ xs → ∃ k, m.names n = some k) →
    warmPairs m xs vs = .ok ((xs.zip vs).filterMap (startAt m))
  | [], vs, _ => by cases vs <;> simp [warmPairs]
  | x :: xs, [], _ => by simp [warmPairs]
  | .var n :: xs, .lit v :: vs, h => by
    obtain ⟨k, hk⟩ := h n (by simp)
    have ih := warmPairs_spec m xs vs (fun n hn => h n (by simp [hn]))
    simp [warmPairs, startAt, hk, ih]
  | .var n :: xs, .var q :: vs, h => by
    have ih := warmPairs_spec m xs vs (fun n hn => h n (by simp [hn]))
    simp [warmPairs, startAt, List.filterMap_cons, ih]
  | .lit w :: xs, v :: vs, h => by
    have ih := warmPairs_spec m xs vs (fun n hn => h n (by simp [hn]))
    simp [warmPairs, startAt, List.filterMap_cons, ih]

/-- Warm starts are given to the solver in the order they are written, each with the columns of its variables and the values at the same
positions; empty ones are left out. -/
theorem _root_.MZ.C91_warm_start (m : Mip) : ∀ (anns : List Ann), (∀ p ∈ warms anns, ∀ n, .var n ∈ p.1 → ∃ k, m.names n = some k) →
    warmStarts m anns = .ok (((warms anns).map (fun p => (p.1.zip p.2).filterMap (startAt m))).filter (fun l => l ≠ []))
  | [], _ => by simp [warmStarts, warms]
  | .seq l :: r, h => by
    have h1 := MZ.C91_warm_start m l (fun p hp => h p (by simp [warms, hp]))
    have h2 := MZ.C91_warm_start m r (fun p hp => h p (by simp [warms, hp]))
    simp only [warmStarts, h1, h2, Res.ok_bind, warms, List.map_append, List.filter_append]
  | .warm xs vs :: r, h => by
    have h1 := warmPairs_spec m xs vs (h (xs, vs) (by simp [warms]))
    have h2 := MZ.C91_warm_start m r (fun p hp => h p (by simp [warms, hp]))
    simp only [warmStarts, h1, h2, Res.ok_bind, warms, List.map_cons, List.filter_cons]
    split_ifs with h3 h4 h4
    · simp [h3] at h4
    · simp
    · simp
    · simp [h3] at h4
  | .search xs a b :: r, h => by
    have h2 := MZ.C91_warm_start m r (fun p hp => h p (by simpa [warms] using hp))
    simp only [warmStarts, h2, warms]
  | .other :: r, h => by
    have h2 := MZ.C91_warm_start m r (fun p hp => h p (by simpa [warms] using hp))
    simp only [warmStarts, h2, warms]

/-! ## A model -/

/-- Two integers of which one is named twice, a Boolean and an objective. -/
def exDs : List Decl :=
  [⟨0, .int, some [(0, 10)], none⟩, ⟨1, .int, some [(-5, 7)], none⟩, ⟨2, .binary, none, none⟩, ⟨3, .int, some [(3, 8)], some (.var 0)⟩]

/-- A sum, an indicator constraint and a product. -/
def exCs : List Call :=
  [⟨"int_lin_le", [.arr [.lit 2, .lit 3], .arr [.var 0, .var 1], .one (.lit 12)], false, false⟩,
   ⟨"aux_int_le_zero_if_0__IND", [.one (.var 1), .one (.var 2)], false, false⟩,
   ⟨"fzn_int_times", [.one (.var 0), .one (.var 1), .one (.lit 4)], false, false⟩]

theorem exDs_wellFormed : WellFormed 1000 exDs where
  big := by norm_num
  ids := by decide
  earlier := by
    intro l d r h x hx
    have hmem : d ∈ exDs := by rw [h]; simp
    simp only [exDs, List.mem_cons, List.not_mem_nil, or_false] at hmem
    rcases hmem with rfl | rfl | rfl | rfl
    · simp at hx
    · simp at hx
    · simp at hx
    · simp only [Option.some.injEq, Arg.var.injEq] at hx
      subst hx
      cases l with
      | nil => simp [exDs] at h
      | cons e l =>
        simp only [exDs, List.cons_append, List.cons.injEq] at h
        exact ⟨e, by simp, by rw [← h.1], by rw [← h.1]⟩
  lits := by
    intro d hd v hv
    simp only [exDs, List.mem_cons, List.not_mem_nil, or_false] at hd
    rcases hd with rfl | rfl | rfl | rfl <;> simp at hv
  doms := by
    intro d hd l hl
    simp only [exDs, List.mem_cons, List.not_mem_nil, or_false] at hd
    rcases hd with rfl | rfl | rfl | rfl
    · simp only [Option.some.injEq] at hl
      subst hl
      refine ⟨by decide, by simp, ?_⟩
      simp [Within]
      norm_num
    · simp only [Option.some.injEq] at hl
      subst hl
      refine ⟨by decide, by simp, ?_⟩
      simp [Within]
      norm_num
    · simp at hl
    · simp only [Option.some.injEq] at hl
      subst hl
      refine ⟨by decide, by simp, ?_⟩
      simp [Within]
      norm_num

theorem exCs_covered : ∀ c ∈ exCs, Covered 1000 (fun n => ∃ d ∈ exDs, d.id = n) c := by
  intro c hc
  simp only [exCs, List.mem_cons, List.not_mem_nil, or_false] at hc
  rcases hc with rfl | rfl | rfl
  · refine ⟨Usual.lin _ (by simp) [2, 3] _ _ rfl (Or.inl ⟨0, by simp⟩), ?_, ?_, by simp⟩
    · simp [Val.list, exDs]
    · simp [Val.list, Within]
      norm_num
  · refine ⟨Usual.indicator _ (by simp) _ _, ?_, ?_, by simp⟩
    · simp [Val.list, exDs]
    · simp [Val.list]
  · refine ⟨Usual.times _ (by simp) _ _ _, ?_, ?_, by simp⟩
    · simp [Val.list, exDs]
    · simp [Val.list, Within]
      norm_num

/-- The model has a solution, so its problem has one. -/
theorem exSolution : Solution exDs exCs (fun n => if n = 1 ∨ n = 2 then 1 else 4) := by
  constructor
  · intro d hd
    simp only [exDs, List.mem_cons, List.not_mem_nil, or_false] at hd
    rcases hd with rfl | rfl | rfl | rfl
    · exact ⟨fun _ => ⟨4, by norm_num⟩, by simp, by simp; norm_num, by simp⟩
    · exact ⟨fun _ => ⟨1, by norm_num⟩, by simp, by simp; norm_num, by simp⟩
    · exact ⟨by simp, by simp, by simp, by simp⟩
    · exact ⟨fun _ => ⟨4, by norm_num⟩, by simp, by simp; norm_num, by simp [Arg.value]⟩
  · intro c hc
    simp only [exCs, List.mem_cons, List.not_mem_nil, or_false] at hc
    rcases hc with rfl | rfl | rfl
    · simp [Call.Holds, Sem, LinLe, Val.value, Arg.value, dot]
      norm_num
    · simp [Call.Holds, Sem, Le0If0, Val.value, Arg.value]
    · simp [Call.Holds, Sem, Val.value, Arg.value]

example : ∃ m x, processFlatZinc 1000 exDs (some 3) exCs = .ok m ∧ m.Feasible 1000 x ∧ m.values x 0 = 4 ∧ m.values x 3 = 4 ∧ m.objective x = 4 ∧
    m.cols.length = 4 := by
  obtain ⟨m, h, -, -, h3, h4, -⟩ := MZ.C91_problem_partial 1000 exDs (some 3) exCs exDs_wellFormed exCs_covered
  obtain ⟨x, hx, hv⟩ := h3 _ exSolution
  have h0 := hv ⟨0, .int, some [(0, 10)], none⟩ (by simp [exDs])
  have h3' := hv ⟨3, .int, some [(3, 8)], some (.var 0)⟩ (by simp [exDs])
  simp at h0 h3'
  refine ⟨m, x, h, hx, h0, h3', by rw [h4 3 rfl, h3'], ?_⟩
  have : (match processFlatZinc 1000 exDs (some 3) exCs with | .ok m => m.cols.length | _ => 0) = 4 := rfl
  rw [h] at this
  exact this

example : warms [.seq [.warm [.var 0, .lit 3] [.lit 5, .lit 3], .other], .warm [.var 1] [.lit 2]] = [([.var 0, .lit 3], [.lit 5, .lit 3]), ([.var 1], [.lit 2])] := by
  simp [warms]

example : (match processSearch { Mip.empty with names := fun n => some n } [.seq [.search [.var 0, .var 1] "input_order" "indomain_min", .other], .search [.var 2] "first_fail" "indomain_max"] with
    | .ok s => (s.vars, s.pri, s.varSel) | _ => ([], [], [])) = ([0, 1, 2], [1, 1, 0], ["first_fail", "input_order"]) := by
  simp [processSearch, flattenSearch, searchLoop, columns]

/-! ## What is not as it should be -/

/-- One float. -/
def oneReal (lb ub : Rat) : List Decl := [⟨0, .real, some [(lb, ub)], none⟩]

/-- One Boolean. -/
def oneBool (a : Option Arg) : List Decl := [⟨0, .binary, none, a⟩]

/-- `1 -> x = 0` is not enforced: where the flag is known the second value is tested in its place. -/
theorem _root_.MZ.C91_known_flag_fails : ∃ ds c m x, processFlatZinc 1000 ds none [c] = .ok m ∧ m.Feasible 1000 x ∧ c.name = "aux_float_eq_if_1__IND" ∧
    c.args = [.one (.var 0), .one (.lit 0), .one (.lit 1)] ∧ ¬ c.Holds (m.values x) := by
  refine ⟨oneReal 0 5, ⟨"aux_float_eq_if_1__IND", [.one (.var 0), .one (.lit 0), .one (.lit 1)], false, false⟩,
    ⟨[⟨0, 0, 5, .real⟩], [], [], fun n => if n = 0 then some 0 else none, false, none⟩, fun _ => 3, ?_, ?_, rfl, rfl, ?_⟩
  · simp [processFlatZinc, oneReal, declareAll, declare, follow, bounds, Mip.empty, postAll, post, pIndicatorEqIf1, side]
    norm_num
  · refine ⟨rfl, ?_, by simp, by simp⟩
    intro j c hj
    have h0 : j = 0 := by
      have := (List.getElem?_eq_some_iff.mp hj).1
      simpa using this
    subst h0
    simp only [List.getElem?_cons_zero, Option.some.injEq] at hj
    subst hj
    exact ⟨fun _ => by norm_num, fun _ => by norm_num, by simp, by simp⟩
  · simp [Call.Holds, Sem, EqIf1, Val.value, Arg.value, Mip.values]

/-- `0 -> 1 = 2` is reported unsatisfiable, for the same reason. -/
theorem _root_.MZ.C91_known_flag_unsat_fails : ∃ c m, processFlatZinc 1000 [] none [c] = .ok m ∧ m.unsat = true ∧ ∀ σ, c.Holds σ := by
  refine ⟨⟨"aux_float_eq_if_1__IND", [.one (.lit 1), .one (.lit 2), .one (.lit 0)], false, false⟩, setUnsat Mip.empty, ?_, rfl, ?_⟩
  · simp only [processFlatZinc, declareAll, postAll, post, pIndicatorEqIf1, side, Res.ok_bind]
    rw [if_pos (by norm_num)]
  · intro σ
    simp [Call.Holds, Sem, EqIf1, Val.value, Arg.value]

/-- A variable with the domain `-10..-5` and `0 -> x ≤ 0`: the upper bound becomes 0. -/
theorem _root_.MZ.C91_upper_bound_fails : ∃ c m x, processFlatZinc 1000 (oneReal (-10) (-5)) none [c] = .ok m ∧ m.Feasible 1000 x ∧
    c.args = [.one (.var 0), .one (.lit 0)] ∧ ¬ Solution (oneReal (-10) (-5)) [c] (m.values x) := by
  refine ⟨⟨"aux_float_le_zero_if_0__IND", [.one (.var 0), .one (.lit 0)], false, false⟩,
    ⟨[⟨0, -10, 0, .real⟩], [], [], fun n => if n = 0 then some 0 else none, false, none⟩, fun _ => -3, ?_, ?_, rfl, ?_⟩
  · simp [processFlatZinc, oneReal, declareAll, declare, follow, bounds, Mip.empty, postAll, post, pIndicatorLe0If0, setVarUB]
    norm_num
  · refine ⟨rfl, ?_, by simp, by simp⟩
    intro j c hj
    have h0 : j = 0 := by
      have := (List.getElem?_eq_some_iff.mp hj).1
      simpa using this
    subst h0
    simp only [List.getElem?_cons_zero, Option.some.injEq] at hj
    subst hj
    exact ⟨fun _ => by norm_num, fun _ => by norm_num, by simp, by simp⟩
  · intro h
    obtain ⟨r, hr, h1, h2⟩ := (h.1 ⟨0, .real, some [(-10, -5)], none⟩ (by simp [oneReal])).dom _ rfl
    simp only [List.mem_singleton] at hr
    subst hr
    simp [Mip.values] at h2
    norm_num at h2

/-- A Boolean that is false and `b = 0 -> 1 ≤ 0`: the bounds become 1. -/
theorem _root_.MZ.C91_bounds_fails : ∃ c m x, processFlatZinc 1000 (oneBool (some (.lit 0))) none [c] = .ok m ∧ m.Feasible 1000 x ∧
    c.args = [.one (.lit 1), .one (.var 0)] ∧ ∀ σ, ¬ Solution (oneBool (some (.lit 0))) [c] σ := by
  refine ⟨⟨"aux_float_le_zero_if_0__IND", [.one (.lit 1), .one (.var 0)], false, false⟩,
    ⟨[⟨0, 1, 1, .binary⟩], [], [], fun n => if n = 0 then some 0 else none, false, none⟩, fun _ => 1, ?_, ?_, rfl, ?_⟩
  · simp [processFlatZinc, oneBool, declareAll, declare, follow, bounds, Mip.empty, postAll, post, pIndicatorLe0If0, setVarBounds]
    norm_num
  · refine ⟨rfl, ?_, by simp, by simp⟩
    intro j c hj
    have h0 : j = 0 := by
      have := (List.getElem?_eq_some_iff.mp hj).1
      simpa using this
    subst h0
    simp only [List.getElem?_cons_zero, Option.some.injEq] at hj
    subst hj
    exact ⟨fun _ => by norm_num, fun _ => by norm_num, by simp, by simp⟩
  · intro σ h
    have h1 := (h.1 ⟨0, .binary, none, some (.lit 0)⟩ (by simp [oneBool])).rhs _ rfl
    have h2 := h.2 _ (by simp; rfl)
    simp [Call.Holds, Sem, Le0If0, Val.value, Arg.value] at h1 h2
    exact absurd (h2 h1) (by norm_num)

/-- Different constants are equal within a tolerance. -/
theorem _root_.MZ.C91_tolerance_fails : ∃ c m x, processFlatZinc 1000 [] none [c] = .ok m ∧ m.Feasible 1000 x ∧ c.name = "float_eq" ∧ ∀ σ, ¬ c.Holds σ := by
  refine ⟨⟨"float_eq", [.one (.lit 0), .one (.lit (1 / 1000000))], false, false⟩, Mip.empty, fun _ => 0, ?_, ⟨rfl, by simp [Mip.empty], by simp [Mip.empty],
    by simp [Mip.empty]⟩, rfl, ?_⟩
  · simp only [processFlatZinc, declareAll, postAll, post, pNonLin, side, Res.ok_bind, finish, List.append_nil, if_true]
    rw [if_neg (by norm_num [violated, abs_of_pos])]
  · intro σ
    simp [Call.Holds, Sem, Equal, Val.value, Arg.value]

/-- A domain with a hole is its hull. -/
theorem _root_.MZ.C91_holes_fails : ∃ ds m x, processFlatZinc 1000 ds none [] = .ok m ∧ m.Feasible 1000 x ∧ ¬ Solution ds [] (m.values x) := by
  refine ⟨[⟨0, .int, some [(1, 2), (5, 6)], none⟩],
    ⟨[⟨0, 1, 6, .int⟩], [], [], fun n => if n = 0 then some 0 else none, false, none⟩, fun _ => 4, ?_, ?_, ?_⟩
  · simp [processFlatZinc, declareAll, declare, follow, bounds, Mip.empty, postAll]
  · refine ⟨rfl, ?_, by simp, by simp⟩
    intro j c hj
    have h0 : j = 0 := by
      have := (List.getElem?_eq_some_iff.mp hj).1
      simpa using this
    subst h0
    simp only [List.getElem?_cons_zero, Option.some.injEq] at hj
    subst hj
    exact ⟨fun _ => by norm_num, fun _ => by norm_num, fun _ => ⟨4, by norm_num⟩, by simp⟩
  · intro h
    obtain ⟨r, hr, h1, h2⟩ := (h.1 ⟨0, .int, some [(1, 2), (5, 6)], none⟩ (by simp)).dom _ rfl
    simp only [List.mem_cons, List.not_mem_nil, or_false] at hr
    rcases hr with rfl | rfl
    · norm_num [Mip.values] at h2
    · norm_num [Mip.values] at h1

/-- A domain of a Boolean is ignored. -/
theorem _root_.MZ.C91_bool_domain_fails : ∃ ds m x, processFlatZinc 1000 ds none [] = .ok m ∧ m.Feasible 1000 x ∧ ¬ Solution ds [] (m.values x) ∧
    ∀ d ∈ ds, d.ty = .binary := by
  refine ⟨[⟨0, .binary, some [(1, 1)], none⟩],
    ⟨[⟨0, 0, 1, .binary⟩], [], [], fun n => if n = 0 then some 0 else none, false, none⟩, fun _ => 0, ?_, ?_, ?_, by simp⟩
  · simp [processFlatZinc, declareAll, declare, follow, bounds, Mip.empty, postAll]
  · refine ⟨rfl, ?_, by simp, by simp⟩
    intro j c hj
    have h0 : j = 0 := by
      have := (List.getElem?_eq_some_iff.mp hj).1
      simpa using this
    subst h0
    simp only [List.getElem?_cons_zero, Option.some.injEq] at hj
    subst hj
    exact ⟨fun _ => by norm_num, fun _ => by norm_num, by simp, by simp⟩
  · intro h
    obtain ⟨r, hr, h1, h2⟩ := (h.1 ⟨0, .binary, some [(1, 1)], none⟩ (by simp)).dom _ rfl
    simp only [List.mem_singleton] at hr
    subst hr
    simp [Mip.values] at h1
    norm_num at h1

/-- Without variables the solver is not called, and every problem that was not found to be infeasible is reported satisfied. -/
theorem _root_.MZ.C91_no_variables_fails : ∃ c m, processFlatZinc 1000 [] none [c] = .ok m ∧ solve m false .unsat = .sat ∧ Usual c.name c.args ∧
    ∀ σ, ¬ c.Holds σ := by
  refine ⟨⟨"bounds_disj", [.arr [], .arr [], .arr [], .arr [], .arr [], .arr []], false, false⟩, addGen Mip.empty (.boundsDisj [] []), ?_, ?_, ?_, ?_⟩
  · rfl
  · simp [solve, addGen, Mip.empty]
  · exact Usual.disj [] [] [] [] [] [] rfl rfl rfl rfl
  · intro σ
    simp [Call.Holds, Sem, Val.value]

end MipInst
end MZ
