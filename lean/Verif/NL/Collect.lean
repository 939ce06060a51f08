import Verif.NL.Dispatch

/-!
# The collected problem
-/

namespace MZ.NL

variable {K : Type} [Field K] [LinearOrder K] [IsStrictOrderedRing K] [FloorRing K]

/-- What never changes about a variable. -/
def Var.key (v : Var K) : String × Bool × Bool := (v.name, v.isInteger, v.toReport)

/-- The jacobian is empty or lists every variable of the expression. -/
def lists (g : List (Tok K)) (js : List (String × K)) : Prop :=
  js = [] ∨ ∀ n, Tok.v n ∈ g → n ∈ js.map Prod.fst

theorem lists_nil (js : List (String × K)) : lists ([] : List (Tok K)) js := Or.inr (by simp)

theorem lists_bin (op : Tok K) (hop : ∀ n, op ≠ .v n) (x y : Arg K) (z : String) :
    lists [op, tokOf x, tokOf y] (binJacobian x y z) := by
  refine Or.inr fun n hn => ?_
  simp only [List.mem_cons, List.not_mem_nil, or_false] at hn
  rcases hn with h | h | h
  · exact absurd h.symm (hop n)
  · cases x <;> simp only [tokOf, Tok.v.injEq, reduceCtorEq] at h
    subst h
    cases y with
    | c k => simp [binJacobian]
    | v b =>
      by_cases hb : n = b
      · subst hb; simp [binJacobian]
      · simp [binJacobian, hb]
  · cases y <;> simp only [tokOf, Tok.v.injEq, reduceCtorEq] at h
    subst h
    simp [binJacobian]

theorem lists_un (x : Arg K) (z : String) (g : List (Tok K)) (hg : ∀ n, Tok.v n ∈ g → tokOf x = .v n) :
    lists g (unJacobian x z) := by
  refine Or.inr fun n hn => ?_
  have := hg n hn
  cases x <;> simp only [tokOf, Tok.v.injEq, reduceCtorEq] at this
  subst this
  simp [unJacobian]

/-- What one call may do to the file. -/
inductive Grow (f f' : File K) : Prop
  | bound (vs : List (Var K))
      (hk : vs.map (fun v => (v.key, v.jacobianCount)) = f.vars.map (fun v => (v.key, v.jacobianCount)))
      (h : f' = { f with vars := vs })
  | alg (r : Bound K) (g : List (Tok K)) (js : List (String × K)) (hr : (∃ v, r = .eq v) ∨ ∃ u, r = .ub u)
      (hl : lists g js) (h : addAlg f r g js = some f')
  | logical (g : List (Tok K)) (h : f' = addLogical f g)

theorem onBound_key {upd : Bound K → Option (Bound K)} {vs vs' : List (Var K)} {n : String}
    (h : onBound upd vs n = some vs') :
    vs'.map (fun v => (v.key, v.jacobianCount)) = vs.map (fun v => (v.key, v.jacobianCount)) := by
  induction vs generalizing vs' with
  | nil => simp [onBound] at h
  | cons v vs ih =>
    simp only [onBound] at h
    split_ifs at h
    · simp only [Option.map_eq_some_iff] at h
      obtain ⟨b, -, rfl⟩ := h
      simp [Var.key]
    · cases hr : onBound upd vs n with
      | none => simp [hr] at h
      | some vs'' =>
        simp only [hr, Option.map_some, Option.some.injEq] at h
        subst h; simp [ih hr]

theorem analyse_grow {f f' : File K} {c : Call K} (h : analyse f c = some f') : Grow f f' := by
  simp only [analyse, Option.bind_eq_some_iff] at h
  obtain ⟨k, -, hb⟩ := h
  have hlin : ∀ {cs xs v}, linconsEq f cs xs v = some f' → Grow f f' := by
    intro cs xs v h
    cases v <;> exact Grow.alg _ _ _ (Or.inl ⟨_, rfl⟩) (lists_nil _) h
  unfold build at hb
  split at hb
  · exact hlin hb
  · rename_i v _
    cases v <;> exact Grow.alg _ _ _ (Or.inr ⟨_, rfl⟩) (lists_nil _) hb
  · simp only [Option.some.injEq] at hb; exact Grow.logical _ hb.symm
  · rename_i x y _
    cases x <;> cases y <;> simp only [nlconsEq] at hb
    · simp only [Option.some.injEq] at hb; exact Grow.bound f.vars rfl hb.symm
    · simp only [Option.map_eq_some_iff] at hb
      obtain ⟨vs, hv, rfl⟩ := hb; exact Grow.bound vs (onBound_key hv) rfl
    · simp only [Option.map_eq_some_iff] at hb
      obtain ⟨vs, hv, rfl⟩ := hb; exact Grow.bound vs (onBound_key hv) rfl
    · split_ifs at hb
      · simp only [Option.some.injEq] at hb; exact Grow.bound f.vars rfl hb.symm
      · exact Grow.alg _ _ _ (Or.inl ⟨_, rfl⟩) (lists_nil _) hb
  · rename_i x y _
    cases x <;> cases y <;> simp only [nlconsLe] at hb
    · simp only [Option.some.injEq] at hb; exact Grow.bound f.vars rfl hb.symm
    · simp only [Option.map_eq_some_iff] at hb
      obtain ⟨vs, hv, rfl⟩ := hb; exact Grow.bound vs (onBound_key hv) rfl
    · simp only [Option.map_eq_some_iff] at hb
      obtain ⟨vs, hv, rfl⟩ := hb; exact Grow.bound vs (onBound_key hv) rfl
    · split_ifs at hb
      · simp only [Option.some.injEq] at hb; exact Grow.bound f.vars rfl hb.symm
      · exact Grow.alg _ _ _ (Or.inr ⟨_, rfl⟩) (lists_nil _) hb
  · simp only [Option.some.injEq] at hb; exact Grow.logical _ hb.symm
  · rename_i z _
    cases z
    · exact Grow.alg _ _ _ (Or.inl ⟨_, rfl⟩) (Or.inl rfl) hb
    · exact Grow.alg _ _ _ (Or.inl ⟨_, rfl⟩) (lists_bin _ (by simp) _ _ _) hb
  · rename_i z _
    cases z
    · exact Grow.alg _ _ _ (Or.inl ⟨_, rfl⟩) (Or.inl rfl) hb
    · exact Grow.alg _ _ _ (Or.inl ⟨_, rfl⟩) (lists_bin _ (by simp) _ _ _) hb
  · rename_i z _
    cases z
    · exact Grow.alg _ _ _ (Or.inl ⟨_, rfl⟩) (Or.inl rfl) hb
    · exact Grow.alg _ _ _ (Or.inl ⟨_, rfl⟩) (lists_un _ _ _ (by simp [eq_comm])) hb
  · rename_i z _
    cases z
    · exact Grow.alg _ _ _ (Or.inl ⟨_, rfl⟩) (Or.inl rfl) hb
    · exact Grow.alg _ _ _ (Or.inl ⟨_, rfl⟩) (lists_un _ _ _ (by simp [eq_comm])) hb
  · exact hlin hb
  · simp at hb

/-- All jacobian entries of the file. -/
def allJac (f : File K) : List (String × K) := f.cons.flatMap Alg.jacobian

/-- How often a variable occurs in the jacobians. -/
def occ (n : String) (js : List (String × K)) : Nat := js.countP (fun e => e.1 == n)

/-- What holds of every file during phase 1. -/
structure Inv (ds : List (Decl K)) (f : File K) : Prop where
  keys : f.vars.map Var.key = ds.map (fun d => (d.name, d.isInt, d.output))
  counts : ∀ v ∈ f.vars, v.jacobianCount = occ v.name (allJac f)
  known : ∀ e ∈ allJac f, e.1 ∈ ds.map Decl.name
  ranges : ∀ a ∈ f.cons, (∃ v, a.range = .eq v) ∨ ∃ u, a.range = .ub u
  obj : f.objGraph = []
  sparse : ∀ a ∈ f.cons, lists a.graph a.jacobian

theorem bumpVar_count {vs vs' : List (Var K)} {n : String} (h : bumpVar vs n = some vs')
    (hn : (vs.map Var.name).Nodup) (o : String → Nat) (hc : ∀ v ∈ vs, v.jacobianCount = o v.name) :
    (∀ v ∈ vs', v.jacobianCount = o v.name + if v.name = n then 1 else 0) ∧ n ∈ vs.map Var.name := by
  induction vs generalizing vs' with
  | nil => simp [bumpVar] at h
  | cons v vs ih =>
    simp only [List.map_cons, List.nodup_cons] at hn
    simp only [bumpVar] at h
    split_ifs at h with hv
    · simp only [Option.some.injEq] at h; subst h
      refine ⟨?_, by simp [hv]⟩
      simp only [List.forall_mem_cons]
      refine ⟨by simp [hv, hc v (by simp)], fun w hw => ?_⟩
      have : w.name ≠ n := fun he => hn.1 (by
        rw [hv, ← he]; exact List.mem_map_of_mem hw)
      simp [this, hc w (by simp [hw])]
    · cases hr : bumpVar vs n with
      | none => simp [hr] at h
      | some vs'' =>
        simp only [hr, Option.map_some, Option.some.injEq] at h
        subst h
        have := ih hr hn.2 (fun w hw => hc w (by simp [hw]))
        refine ⟨?_, by simp [this.2]⟩
        simp only [List.forall_mem_cons]
        exact ⟨by simp [hv, hc v (by simp)], this.1⟩

theorem names_of_bounds {vs vs' : List (Var K)}
    (h : vs'.map (fun v => (v.name, v.isInteger, v.toReport, v.bound)) =
      vs.map (fun v => (v.name, v.isInteger, v.toReport, v.bound))) :
    vs'.map Var.name = vs.map Var.name ∧ vs'.map Var.key = vs.map Var.key := by
  have h1 := congrArg (List.map (fun q : String × Bool × Bool × Bound K => q.1)) h
  have h2 := congrArg (List.map (fun q : String × Bool × Bool × Bound K => (q.1, q.2.1, q.2.2.1))) h
  simp only [List.map_map] at h1 h2
  exact ⟨h1, h2⟩

theorem bumpVars_count {ns : List String} {vs vs' : List (Var K)} (h : bumpVars vs ns = some vs')
    (hn : (vs.map Var.name).Nodup) (o : String → Nat) (hc : ∀ v ∈ vs, v.jacobianCount = o v.name) :
    (∀ v ∈ vs', v.jacobianCount = o v.name + ns.count v.name) ∧ ∀ n ∈ ns, n ∈ vs.map Var.name := by
  induction ns generalizing vs o with
  | nil =>
    simp only [bumpVars, Option.some.injEq] at h; subst h
    exact ⟨by simpa using hc, by simp⟩
  | cons n ns ih =>
    simp only [bumpVars, Option.bind_eq_some_iff] at h
    obtain ⟨vs1, h1, h2⟩ := h
    have hb := (names_of_bounds (bumpVar_bounds h1)).1
    have hc1 := bumpVar_count h1 hn o hc
    have := ih h2 (by rw [hb]; exact hn) (fun m => o m + if m = n then 1 else 0) hc1.1
    refine ⟨fun v hv => ?_, ?_⟩
    · rw [this.1 v hv, List.count_cons]
      by_cases hvn : v.name = n
      · simp [hvn]; omega
      · have : ¬ n = v.name := fun h => hvn h.symm
        simp [hvn, this]
    · simp only [List.forall_mem_cons]
      exact ⟨hc1.2, fun m hm => by rw [← hb]; exact this.2 m hm⟩

theorem count_map_fst (js : List (String × K)) (n : String) : (js.map Prod.fst).count n = occ n js := by
  unfold occ
  rw [List.count_eq_countP, List.countP_map]
  rfl

theorem Inv.step {ds : List (Decl K)} (hd : (ds.map Decl.name).Nodup) {f f' : File K} (hf : Inv ds f)
    (h : Grow f f') : Inv ds f' := by
  have hnames : f.vars.map Var.name = ds.map Decl.name := by
    have := congrArg (List.map Prod.fst) hf.keys
    simpa [List.map_map, Var.key, Function.comp_def] using this
  cases h with
  | bound vs hk h =>
    subst h
    have hk1 : vs.map Var.key = f.vars.map Var.key := by
      have := congrArg (List.map Prod.fst) hk
      simpa [List.map_map, Function.comp_def] using this
    refine ⟨hk1.trans hf.keys, ?_, hf.known, hf.ranges, hf.obj, hf.sparse⟩
    intro v hv
    have hm : (v.key, v.jacobianCount) ∈ f.vars.map (fun v => (v.key, v.jacobianCount)) := by
      rw [← hk]; exact List.mem_map_of_mem (f := fun v => (v.key, v.jacobianCount)) hv
    obtain ⟨w, hw, he⟩ := List.mem_map.1 hm
    simp only [Prod.mk.injEq, Var.key] at he
    have := hf.counts w hw
    rw [← he.2, this, he.1.1]
    rfl
  | alg r g js hr hl h =>
    simp only [addAlg, Option.map_eq_some_iff] at h
    obtain ⟨vs, hv, rfl⟩ := h
    have hb := names_of_bounds (bumpVars_bounds hv)
    have hc := bumpVars_count hv (by rw [hnames]; exact hd) (fun n => occ n (allJac f)) hf.counts
    have hj : allJac ({ f with vars := vs, cons := f.cons ++ [⟨r, g, js⟩] } : File K) = allJac f ++ js := by
      simp [allJac]
    refine ⟨hb.2.trans hf.keys, ?_, ?_, ?_, hf.obj, ?_⟩
    · intro v hvm
      rw [hj]
      rw [hc.1 v hvm, count_map_fst]
      simp [occ]
    · rw [hj]
      intro e he
      rcases List.mem_append.1 he with he | he
      · exact hf.known e he
      · rw [← hnames]; exact hc.2 _ (List.mem_map_of_mem he)
    · simp only [List.forall_mem_append, List.forall_mem_singleton]
      exact ⟨hf.ranges, hr⟩
    · simp only [List.forall_mem_append, List.forall_mem_singleton]
      exact ⟨hf.sparse, hl⟩
  | logical g h =>
    subst h
    exact ⟨hf.keys, hf.counts, hf.known, hf.ranges, hf.obj, hf.sparse⟩

theorem Inv.all {ds : List (Decl K)} (hd : (ds.map Decl.name).Nodup) {cs : List (Call K)} {f f' : File K}
    (hf : Inv ds f) (h : analyseAll f cs = some f') : Inv ds f' := by
  induction cs generalizing f with
  | nil => simp only [analyseAll, Option.some.injEq] at h; subst h; exact hf
  | cons c cs ih =>
    simp only [analyseAll, Option.bind_eq_some_iff] at h
    obtain ⟨f1, h1, h2⟩ := h
    exact ih (hf.step hd (analyse_grow h1)) h2

/-- The names of the variables of a file. -/
theorem Inv.names {ds : List (Decl K)} {f : File K} (hf : Inv ds f) :
    f.vars.map Var.name = ds.map Decl.name := by
  have := congrArg (List.map Prod.fst) hf.keys
  simpa [List.map_map, Var.key, Function.comp_def] using this

theorem Inv.mem_names {ds : List (Decl K)} {f : File K} (hf : Inv ds f) {n : String} :
    (∃ v ∈ f.vars, v.name = n) ↔ ∃ d ∈ ds, d.name = n := by
  have h := hf.names
  have : n ∈ f.vars.map Var.name ↔ n ∈ ds.map Decl.name := by rw [h]
  simpa using this

/-- The declarations, as bounds. -/
theorem mapM_decls {ds : List (Decl K)} {vs : List (Var K)} (h : ds.mapM addVarDecl = some vs) :
    vs.map Var.key = ds.map (fun d => (d.name, d.isInt, d.output)) ∧ (∀ v ∈ vs, v.jacobianCount = 0) ∧
    ∀ s : String → K, varsOK s vs ↔
      ∀ d ∈ ds, ∀ rs, d.dom = some rs → ∃ r ∈ rs, r.1 ≤ s d.name ∧ s d.name ≤ r.2 := by
  induction ds generalizing vs with
  | nil =>
    simp only [List.mapM_nil, Option.pure_def, Option.some.injEq] at h; subst h
    simp [varsOK]
  | cons d ds ih =>
    simp only [List.mapM_cons, Option.bind_eq_bind, Option.bind_eq_some_iff, Option.pure_def,
      Option.some.injEq] at h
    obtain ⟨v, hv, vs', hvs, rfl⟩ := h
    have hi := ih hvs
    have hd : v.key = (d.name, d.isInt, d.output) ∧ v.jacobianCount = 0 ∧ ∀ s : String → K,
        v.bound.allows (s v.name) ↔ ∀ rs, d.dom = some rs → ∃ r ∈ rs, r.1 ≤ s d.name ∧ s d.name ≤ r.2 := by
      unfold addVarDecl at hv
      split at hv
      · rename_i hdom
        simp only [Option.some.injEq] at hv; subst hv
        simp [Var.key, hdom, Bound.allows]
      · rename_i l u hdom
        simp only [Option.some.injEq] at hv; subst hv
        simp [Var.key, hdom, makeBounded_allows]
      · simp at hv
    refine ⟨by simp [hd.1, hi.1], by simpa using ⟨hd.2.1, hi.2.1⟩, fun s => ?_⟩
    have hs := hi.2.2 s
    simp only [varsOK, List.forall_mem_cons] at hs ⊢
    rw [hd.2.2 s, hs]

theorem Inv.start {ds : List (Decl K)} {vs : List (Var K)} (h : ds.mapM addVarDecl = some vs) (st : Sense) :
    Inv ds (⟨vs, [], [], st, [], []⟩ : File K) := by
  have := mapM_decls h
  refine ⟨this.1, ?_, by simp [allJac], by simp, rfl, by simp⟩
  intro v hv
  rw [this.2.1 v hv]; rfl

/-- The integer arguments are integer. -/
theorem ints_of {p : Flat K} {c : Call K} (hwf : c.wf p) {s : String → K}
    (hs : ∀ d ∈ p.decls, d.isInt = true → ∃ z : ℤ, s d.name = z) :
    c.id ∈ ["int_div", "int_mod", "int_pow"] → ∀ a ∈ c.args.map (Arg.val s), ∃ z : ℤ, a = z := by
  intro hid a ha
  obtain ⟨x, hx, rfl⟩ := List.mem_map.1 ha
  have := hwf.2.2.2 hid x hx
  cases x with
  | c k => exact this.1 k rfl
  | v n =>
    obtain ⟨d, hd, hn, hint⟩ := this.2 n rfl
    have := hs d hd hint
    simpa [Arg.val, hn] using this

theorem analyseAll_sat {p : Flat K} {cs : List (Call K)} (hsub : ∀ c ∈ cs, c ∈ p.calls) {f f' : File K}
    (h : analyseAll f cs = some f') (hd : p.distinct) (hinv : Inv p.decls f) (F : Funs K) (s : String → K)
    (hwf : ∀ c ∈ p.calls, c.wf p) (hint : ∀ d ∈ p.decls, d.isInt = true → ∃ z : ℤ, s d.name = z)
    (hex : ∀ c ∈ p.calls, c.exact s) (W : String → K) (hW : varsOK W f.vars)
    (hu : ∀ d ∈ p.decls, ∀ c ∈ p.calls, c.unary d.name → c.holds F (fun _ => W d.name)) :
    f'.sat F s ↔ f.sat F s ∧ ∀ c ∈ cs, c.holds F s := by
  induction cs generalizing f with
  | nil => simp only [analyseAll, Option.some.injEq] at h; subst h; simp
  | cons c cs ih =>
    simp only [analyseAll, Option.bind_eq_some_iff] at h
    obtain ⟨f1, h1, h2⟩ := h
    have hc := hsub c (by simp)
    have hstep := analyse_sat h1 F s p (hwf c hc) (ints_of (hwf c hc) hint) (hex c hc) W hW (by
      intro n hn hun
      obtain ⟨d, hdm, rfl⟩ := hinv.mem_names.1 hn
      exact hu d hdm c hc hun)
    rw [ih (fun c' hc' => hsub c' (by simp [hc'])) h2 (hinv.step hd (analyse_grow h1)) hstep.2,
      hstep.1]
    simp only [List.forall_mem_cons]
    tauto

theorem analyseAll_imp {p : Flat K} {cs : List (Call K)} (hsub : ∀ c ∈ cs, c ∈ p.calls) {f f' : File K}
    (h : analyseAll f cs = some f') (F : Funs K) (s : String → K)
    (hwf : ∀ c ∈ p.calls, c.wf p) (hint : ∀ d ∈ p.decls, d.isInt = true → ∃ z : ℤ, s d.name = z)
    (hex : ∀ c ∈ p.calls, c.exact s) (hs : f.sat F s) (hc : ∀ c ∈ cs, c.holds F s) : f'.sat F s := by
  induction cs generalizing f with
  | nil => simp only [analyseAll, Option.some.injEq] at h; subst h; exact hs
  | cons c cs ih =>
    simp only [analyseAll, Option.bind_eq_some_iff] at h
    obtain ⟨f1, h1, h2⟩ := h
    have hcm := hsub c (by simp)
    refine ih (fun c' hc' => hsub c' (by simp [hc'])) h2 ?_ (fun c' hc' => hc c' (by simp [hc']))
    exact analyse_imp h1 F s p (hwf c hcm) (ints_of (hwf c hcm) hint) (hex c hcm) hs (hc c (by simp))

/-- What `addSolve` leaves alone. -/
theorem addSolve_same {f f' : File K} {st : Sense} {e : Option (Arg K)} (h : addSolve f st e = some f') :
    f'.vars = f.vars ∧ f'.cons = f.cons ∧ f'.logical = f.logical ∧ f'.objGraph = f.objGraph := by
  unfold addSolve at h
  split at h
  · simp only [Option.some.injEq] at h; subst h; simp
  · simp only [Option.some.injEq] at h; subst h; simp
  · simp only [Option.some.injEq] at h; subst h; simp
  · simp at h

theorem collect_parts {p : Flat K} {f : File K} (h : collect p = some f) :
    ∃ vs f1, p.decls.mapM addVarDecl = some vs ∧
      analyseAll ⟨vs, [], [], .undef, [], []⟩ p.calls = some f1 ∧ addSolve f1 p.sense p.obj = some f := by
  simp only [collect, Option.bind_eq_some_iff] at h
  obtain ⟨vs, h1, f1, h2, h3⟩ := h
  exact ⟨vs, f1, h1, h2, h3⟩

theorem collect_inv {p : Flat K} {f : File K} (h : collect p = some f) (hd : p.distinct) :
    Inv p.decls f := by
  obtain ⟨vs, f1, h1, h2, h3⟩ := collect_parts h
  have hi := (Inv.start h1 .undef).all hd h2
  obtain ⟨hv, hc, hl, ho⟩ := addSolve_same h3
  refine ⟨by rw [hv]; exact hi.keys, ?_, ?_, by rw [hc]; exact hi.ranges, by rw [ho]; exact hi.obj,
    by rw [hc]; exact hi.sparse⟩
  · rw [hv]; unfold allJac; rw [hc]; exact hi.counts
  · unfold allJac; rw [hc]; exact hi.known

theorem sat_addSolve {f f' : File K} {st : Sense} {e : Option (Arg K)} (h : addSolve f st e = some f')
    (F : Funs K) (s : String → K) : f'.sat F s ↔ f.sat F s := by
  obtain ⟨hv, hc, hl, -⟩ := addSolve_same h
  simp [File.sat, hv, hc, hl]

/-- Phase 1 keeps the meaning, when the bounds of each variable are consistent. -/
theorem collect_sat {p : Flat K} {f : File K} (h : collect p = some f) (hd : p.distinct) (F : Funs K)
    (s : String → K) (hwf : ∀ c ∈ p.calls, c.wf p)
    (hint : ∀ d ∈ p.decls, d.isInt = true → ∃ z : ℤ, s d.name = z)
    (hex : ∀ c ∈ p.calls, c.exact s) (hbox : p.boxOK F) :
    f.sat F s ↔ p.Sol F s := by
  obtain ⟨vs, f1, h1, h2, h3⟩ := collect_parts h
  have hW : ∀ n : String, ∃ w : K, ∀ d ∈ p.decls, d.name = n →
      (∀ rs, d.dom = some rs → ∃ r ∈ rs, r.1 ≤ w ∧ w ≤ r.2) ∧
      ∀ c ∈ p.calls, c.unary d.name → c.holds F (fun _ => w) := by
    intro n
    by_cases hn : ∃ d ∈ p.decls, d.name = n
    · obtain ⟨d, hdm, rfl⟩ := hn
      obtain ⟨w, hw⟩ := hbox d hdm
      refine ⟨w, fun d' hd' he => ?_⟩
      have : d' = d := List.inj_on_of_nodup_map hd hd' hdm he
      subst this
      exact hw
    · exact ⟨0, fun d hdm he => absurd ⟨d, hdm, he⟩ hn⟩
  choose W hW using hW
  have hm := mapM_decls h1
  rw [sat_addSolve h3, analyseAll_sat (fun c hc => hc) h2 hd (Inv.start h1 .undef) F s hwf hint hex W
    ((hm.2.2 W).2 fun d hdm => (hW d.name d hdm rfl).1) (fun d hdm => (hW d.name d hdm rfl).2)]
  simp only [File.sat, hm.2.2 s, List.not_mem_nil, false_imp_iff, implies_true, and_true, Flat.Sol,
    Decl.holds]
  refine and_congr_left fun _ => ?_
  exact ⟨fun h d hdm => ⟨hint d hdm, h d hdm⟩, fun h d hdm => (h d hdm).2⟩

/-- Phase 1 never loses a solution. -/
theorem collect_imp {p : Flat K} {f : File K} (h : collect p = some f) (F : Funs K)
    (s : String → K) (hwf : ∀ c ∈ p.calls, c.wf p)
    (hex : ∀ c ∈ p.calls, c.exact s) (hs : p.Sol F s) : f.sat F s := by
  obtain ⟨vs, f1, h1, h2, h3⟩ := collect_parts h
  have hm := mapM_decls h1
  rw [sat_addSolve h3]
  refine analyseAll_imp (fun c hc => hc) h2 F s hwf (fun d hdm => (hs.1 d hdm).1) hex ?_ hs.2
  refine ⟨(hm.2.2 s).2 fun d hdm => (hs.1 d hdm).2, by simp, by simp⟩

end MZ.NL
