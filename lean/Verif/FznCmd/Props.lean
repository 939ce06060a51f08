import Verif.FznCmd.Step
/-! # External solvers are started with the options the user asked for -/
namespace MZ
namespace FznCmd
open Options Spec

theorem setAccepted_go : ∀ (fs : List (Word × Bool)) (o : Opts),
    fs.foldl (fun o f => if f.1 ∈ stdFlags then { o with sup := o.sup ++ [f.1] }
      else { o with extra := o.extra ++ [f] }) o =
    { o with sup := o.sup ++ (fs.filter (fun f => f.1 ∈ stdFlags)).map (·.1)
             extra := o.extra ++ fs.filter (fun f => f.1 ∉ stdFlags) }
  | [], o => by simp
  | f :: fs, o => by
    rw [List.foldl_cons, setAccepted_go fs]
    by_cases h : f.1 ∈ stdFlags <;> simp [h]

theorem sup_iff (fs : List (Word × Bool)) (n : Word) (hn : n ∈ stdFlags) :
    n ∈ (setAccepted {} fs).sup ↔ ∃ b, (n, b) ∈ fs := by
  unfold setAccepted
  rw [setAccepted_go]
  simp [hn]

theorem extra_iff (fs : List (Word × Bool)) (f : Word × Bool) :
    f ∈ (setAccepted {} fs).extra ↔ f ∈ fs ∧ f.1 ∉ stdFlags := by
  unfold setAccepted
  rw [setAccepted_go]
  simp

theorem apply_sup (o : Opts) (r : Req) : (apply o r).sup = o.sup ∧ (apply o r).extra = o.extra := by
  cases r <;> simp only [apply] <;> (try split) <;> simp

theorem std_known : ∀ n ∈ stdFlags, n ∈ known := by decide

theorem not_prefix {n : Word} (h : ¬ n <+: cs!"--") (t : Word) :
    2 < n.length ∨ ('-' :: '-' :: t).take n.length ≠ n := by
  by_contra hc
  push Not at hc
  apply h
  rcases n with _ | ⟨c, _ | ⟨d, _ | ⟨e, n⟩⟩⟩
  · simp
  · simp at hc; simp [← hc]
  · simp at hc; simp [← hc]
  · simp at hc

/-- Reading one request. -/
theorem step (rd : Word → Option Int) (accepted : List (Word × Bool)) (hro : rd (cs!"-o") = none)
    (hp : ∀ n, (n, true) ∈ accepted → ¬ n <+: cs!"--") (o : Opts)
    (hsup : o.sup = (setAccepted {} accepted).sup) (hex : o.extra = (setAccepted {} accepted).extra)
    (r : Req) (ws : List Word) (h : Spelled rd accepted r ws) (pre post : List Word) :
    ws ≠ [] ∧
    processOption rd o (pre ++ ws ++ post) pre.length = some (apply o r, pre.length + ws.length - 1) := by
  have g0 : ∀ (k : Word) (l : List Word), (pre ++ k :: l ++ post)[pre.length]? = some k := by simp
  have g1 : ∀ (k v : Word) (l : List Word), (pre ++ k :: v :: l ++ post)[pre.length + 1]? = some v := by simp
  have gs : ∀ (f : Word × Bool), f ∈ accepted → f.1 ∈ stdFlags → f.1 ∈ o.sup := by
    intro f hf hs
    rw [hsup, sup_iff _ _ hs]
    exact ⟨f.2, hf⟩
  have hl : ∀ t : Word, ∀ f ∈ o.extra, f.2 = true →
      2 < f.1.length ∨ ('-' :: '-' :: t).take f.1.length ≠ f.1 := by
    rintro t ⟨n, b⟩ hf hb
    simp only at hb
    subst hb
    rw [hex, extra_iff] at hf
    exact not_prefix (hp n hf.1) t
  cases h with
  | solver k v hk => exact ⟨by simp, step_solver rd o _ _ k v (g0 _ _) (g1 _ _ _) hk⟩
  | backend k v hk => exact ⟨by simp, step_backend rd o _ _ k v (g0 _ _) (g1 _ _ _) hk⟩
  | words k v hk => exact ⟨by simp, step_words rd o _ _ k v (g0 _ _) (g1 _ _ _) hk⟩
  | word k v hk => exact ⟨by simp, step_word rd o _ _ k v (g0 _ _) (g1 _ _ _) hk⟩
  | limit k v n hk hx => exact ⟨by simp, step_limit rd o _ _ k v n (g0 _ _) (g1 _ _ _) hx hk⟩
  | cleanup v n hx => exact ⟨by simp, step_cleanup rd o _ _ _ v n (g0 _ _) (g1 _ _ _) hx (by simp)⟩
  | sigint => exact ⟨by simp, step_sigint rd o _ _ _ (g0 _ _) (by simp)⟩
  | paths => exact ⟨by simp, step_paths rd o _ _ _ (g0 _ _) (by simp)⟩
  | passthrough => exact ⟨by simp, step_passthrough rd o _ _ _ (g0 _ _) (by simp)⟩
  | interactive => exact ⟨by simp, step_interactive rd o _ _ _ (g0 _ _) (by simp)⟩
  | all => exact ⟨by simp, step_all rd o _ _ _ (g0 _ _) (by simp)⟩
  | intermediate => exact ⟨by simp, step_intermediate rd o _ _ _ (g0 _ _) (by simp)⟩
  | num k v n f hf hn hk hx =>
    exact ⟨by simp, step_num rd o _ _ k v n (g0 _ _) (g1 _ _ _) hx
      (by have := gs f hf (by rw [hn]; decide); rw [hn] at this; exact this) hk⟩
  | numOptimal k v n f hf hn hk hx =>
    exact ⟨by simp, step_numOptimal rd o _ _ k v n (g0 _ _) (g1 _ _ _) hx
      (by have := gs f hf (by rw [hn]; decide); rw [hn] at this; exact this) hro hk⟩
  | allOptimal k f hf hn hk =>
    exact ⟨by simp, step_allOptimal rd o _ _ k (g0 _ _)
      (by have := gs f hf (by rw [hn]; decide); rw [hn] at this; exact this) hk⟩
  | parallel k v n hk hx => exact ⟨by simp, step_parallel rd o _ _ k v n (g0 _ _) (g1 _ _ _) hx hk⟩
  | keep k hk => exact ⟨by simp, step_keep rd o _ _ k (g0 _ _) hk⟩
  | seed k v hk => exact ⟨by simp, step_seed rd o _ _ k v (g0 _ _) (g1 _ _ _) hk⟩
  | stats k hk => exact ⟨by simp, step_stats rd o _ _ k (g0 _ _) hk⟩
  | verbose k hk => exact ⟨by simp, step_verbose rd o _ _ k (g0 _ _) hk⟩
  | free k hk => exact ⟨by simp, step_free rd o _ _ k (g0 _ _) hk⟩
  | profiler v f hf hn =>
    exact ⟨by simp, step_profiler rd o _ _ _ v (g0 _ _) (g1 _ _ _)
      (by have := gs f hf (by rw [hn]; decide); rw [hn] at this; exact this) (by simp)⟩
  | backendJoined c v => exact ⟨by simp, step_backendJoined rd o _ _ c v (g0 _ _)⟩
  | limitJoined c v n hx => exact ⟨by simp, step_limitJoined rd o _ _ c v n (g0 _ _) hx⟩
  | numJoined c v n f hf hn hx =>
    exact ⟨by simp, step_numJoined rd o _ _ c v n (g0 _ _) hx
      (by have := gs f hf (by rw [hn]; decide); rw [hn] at this; exact this)⟩
  | parallelJoined c v n hx => exact ⟨by simp, step_parallelJoined rd o _ _ c v n (g0 _ _) hx⟩
  | seedJoined c v => exact ⟨by simp, step_seedJoined rd o _ _ c v (g0 _ _)⟩
  | extra t hf hn hk =>
    refine ⟨by simp, ?_⟩
    rw [process_other rd o _ _ t (g0 _ _) hk, extras_flag o _ _ _ (g0 _ _) _ _ _ (hl t)]
    · rfl
    · rw [hex, extra_iff]
      exact ⟨hf, fun h => hk (std_known _ h)⟩
    · rw [hex, extra_iff]
      exact fun h => hn h.1
  | extraArg t v hf hn hk =>
    refine ⟨by simp, ?_⟩
    rw [process_other rd o _ _ t (g0 _ _) hk, extras_val o _ _ _ v (g0 _ _) (g1 _ _ _) _ _ _ (hl t)]
    · rfl
    · rw [hex, extra_iff]
      exact ⟨hf, fun h => hk (std_known _ h)⟩
    · rw [hex, extra_iff]
      exact fun h => hn h.1

/-- Reading all requests, before further arguments. -/
theorem all_steps_then (rd : Word → Option Int) (accepted : List (Word × Bool)) (hro : rd (cs!"-o") = none)
    (hp : ∀ n, (n, true) ∈ accepted → ¬ n <+: cs!"--") (post : List Word) :
    ∀ (rs : List Req) (ws : List (List Word)), List.Forall₂ (Spelled rd accepted) rs ws →
    ∀ (o : Opts), o.sup = (setAccepted {} accepted).sup → o.extra = (setAccepted {} accepted).extra →
    ∀ (pre : List Word) (fuel : Nat), (ws.flatten ++ post).length ≤ fuel →
    ∃ fuel', post.length ≤ fuel' ∧ processAll rd (pre ++ (ws.flatten ++ post)) fuel pre.length o =
      processAll rd (pre ++ (ws.flatten ++ post)) fuel' (pre.length + ws.flatten.length) (rs.foldl apply o) := by
  intro rs ws h
  induction h with
  | nil =>
    intro o _ _ pre fuel hf
    exact ⟨fuel, by simpa using hf, by simp⟩
  | @cons r w rs ws h hs ih =>
    intro o hsup hex pre fuel hf
    have hst := step rd accepted hro hp o hsup hex r w h pre (ws.flatten ++ post)
    have hw : 0 < w.length := List.length_pos_of_ne_nil hst.1
    simp only [List.flatten_cons, List.length_append] at hf
    obtain ⟨fuel, rfl⟩ : ∃ f, fuel = f + 1 := ⟨fuel - 1, by omega⟩
    have h2 := hst.2
    rw [List.append_assoc] at h2
    obtain ⟨fuel', hf', this⟩ := ih (apply o r) ((apply_sup o r).1.trans hsup) ((apply_sup o r).2.trans hex) (pre ++ w)
      fuel (by simp only [List.length_append]; omega)
    refine ⟨fuel', hf', ?_⟩
    simp only [List.append_assoc, List.length_append, List.flatten_cons, List.foldl_cons] at this h2 ⊢
    rw [processAll, if_pos (by simp only [List.length_append]; omega), h2]
    simp only
    rw [show pre.length + w.length - 1 + 1 = pre.length + w.length by omega, this, Nat.add_assoc]

/-- Reading all requests. -/
theorem all_steps (rd : Word → Option Int) (accepted : List (Word × Bool)) (hro : rd (cs!"-o") = none)
    (hp : ∀ n, (n, true) ∈ accepted → ¬ n <+: cs!"--") (rs : List Req) (ws : List (List Word))
    (h : List.Forall₂ (Spelled rd accepted) rs ws) :
    processAll rd ws.flatten ws.flatten.length 0 (setAccepted {} accepted) =
      some (rs.foldl apply (setAccepted {} accepted)) := by
  obtain ⟨f, -, h⟩ := all_steps_then rd accepted hro hp [] rs ws h _ rfl rfl [] ws.flatten.length (by simp)
  simp only [List.append_nil, List.nil_append, List.length_nil, Nat.zero_add] at h
  rw [h]
  cases f <;> simp [processAll]

theorem extras_none (o : Opts) (argv : List Word) (i : Nat) (n : Word) (h0 : argv[i]? = some n) :
    ∀ fs : List (Word × Bool), (∀ b, (n, b) ∉ fs) →
    (∀ f ∈ fs, f.2 = true → 2 < f.1.length ∨ n.take f.1.length ≠ f.1) → extras o argv i fs = none
  | [], _, _ => rfl
  | (m, true) :: fs, hn, hl => by
    rw [extras, val_miss h0, extras_none o argv i n h0 fs (fun b h => hn b (by simp [h]))
      fun f hf => hl f (by simp [hf])]
    intro k hk
    simp only [List.mem_cons, List.not_mem_nil, or_false] at hk
    subst hk
    exact ⟨fun h => hn true (by simp [h]), hl (k, true) (by simp) rfl⟩
  | (m, false) :: fs, hn, hl => by
    rw [extras, flag_miss h0, extras_none o argv i n h0 fs (fun b h => hn b (by simp [h]))
      fun f hf => hl f (by simp [hf])]
    simp only [List.mem_cons, List.not_mem_nil, or_false]
    exact fun h => hn false (by simp [h])

theorem fold_last {α : Type} (S : List Word) (φ : Opts → α) (f : Req → Option α)
    (h : ∀ o r, o.sup = S → φ (apply o r) = (f r).getD (φ o)) :
    ∀ (rs : List Req) (o : Opts), o.sup = S → φ (rs.foldl apply o) = last f (φ o) rs
  | [], o, _ => rfl
  | r :: rs, o, hS => by
    rw [List.foldl_cons, fold_last S φ f h rs _ ((apply_sup o r).1.trans hS), h o r hS]
    unfold last
    cases hf : f r with
    | none => simp [hf]
    | some a =>
      rw [List.filterMap_cons_some hf]
      cases hq : (rs.filterMap f).getLast? with
      | none => rw [List.getLast?_eq_none_iff.1 hq]; rfl
      | some b => rw [List.getLast?_cons, hq]; rfl

theorem fold_any (S : List Word) (φ : Opts → Bool) (c : Prop) (q : Req)
    (h : ∀ o r, o.sup = S → (φ (apply o r) = true ↔ φ o = true ∨ c ∧ q = r)) :
    ∀ (rs : List Req) (o : Opts), o.sup = S → (φ (rs.foldl apply o) = true ↔ φ o = true ∨ c ∧ q ∈ rs)
  | [], o, _ => by simp
  | r :: rs, o, hS => by
    rw [List.foldl_cons, fold_any S φ c q h rs _ ((apply_sup o r).1.trans hS), h o r hS, List.mem_cons]
    tauto

theorem fold_sup : ∀ (rs : List Req) (o : Opts), (rs.foldl apply o).sup = o.sup
  | [], _ => rfl
  | r :: rs, o => by rw [List.foldl_cons, fold_sup rs, (apply_sup o r).1]

theorem fold_flags (std : String → Bool) (S : List Word) (hr : std "-r" = true ↔ cs!"-r" ∈ S)
    (hf : std "-f" = true ↔ cs!"-f" ∈ S) :
    ∀ (rs : List Req) (o : Opts), o.sup = S →
      (rs.foldl apply o).flags = o.flags ++ rs.flatMap (handed std CmdLine.parse)
  | [], o, _ => by simp
  | r :: rs, o, hS => by
    rw [List.foldl_cons, fold_flags std S hr hf rs _ ((apply_sup o r).1.trans hS), List.flatMap_cons,
      ← List.append_assoc]
    congr 1
    cases r <;> simp only [apply, handed, hr, hf, hS, List.append_nil] <;> (try split) <;>
      first | rfl | simp

theorem last_map {α β : Type} (f : Req → Option α) (g : α → β) (d : α) (rs : List Req) :
    last (fun r => (f r).map g) (g d) rs = g (last f d rs) := by
  unfold last
  have : rs.filterMap (fun r => (f r).map g) = (rs.filterMap f).map g := by
    rw [List.map_filterMap]
  rw [this, List.getLast?_map]
  cases (rs.filterMap f).getLast? <;> rfl

theorem last_mem {α : Type} (f : Req → Option α) (d : α) (rs : List Req) :
    last f d rs = d ∨ ∃ r ∈ rs, f r = some (last f d rs) := by
  unfold last
  cases h : (rs.filterMap f).getLast? with
  | none => exact .inl rfl
  | some a =>
    right
    simpa using List.mem_of_getLast? h

theorem app_congr {a b c d : List W} (h : a = b) (h' : c = d) : a ++ c = b ++ d := by rw [h, h']

theorem opt_congr {c d : Prop} {_ : Decidable c} {_ : Decidable d} {ws : List W} (h : c ↔ d) :
    (if c then ws else []) = opt d ws := by
  unfold opt
  by_cases hd : d
  · rw [if_pos (h.2 hd), if_pos hd]
  · rw [if_neg (mt h.1 hd), if_neg hd]

/-- The command line for requests that were read. -/
theorem solve_fold (sh : Int → W) (accepted : List (W × Bool))
    (std : String → Bool) (hstd : ∀ s, std s = true ↔ ∃ b, (s.toList, b) ∈ accepted) (rs : List Req)
    (hn : ∀ n, Req.numOptimal n ∈ rs → n = 0 ∨ n = 1) (he : exe rs ≠ []) (isSat : Bool) (fzn pth : W) :
    solve sh (rs.foldl apply (setAccepted {} accepted)) isSat fzn pth =
      some (expected std CmdLine.parse sh rs (isSat = true) fzn pth, stopAfter std rs) := by
  have hS : ∀ s : String, s.toList ∈ stdFlags → (std s = true ↔ s.toList ∈ (setAccepted {} accepted).sup) := by
    intro s hm
    rw [hstd, sup_iff _ _ hm]
  have h0 : setAccepted {} accepted =
      { sup := (setAccepted {} accepted).sup, extra := (setAccepted {} accepted).extra } := by
    unfold setAccepted
    rw [setAccepted_go]
  generalize hS0 : (setAccepted {} accepted).sup = S at *
  have hsup := hS0
  have e1 := fold_last S (·.solver) (fun | .solver e => some e | _ => none) (by
    intro o r _; cases r <;> simp only [apply] <;> (try split) <;> rfl) rs _ hsup
  have e2 := fold_last S (·.backend) (fun | .backend e => some e | _ => none) (by
    intro o r _; cases r <;> simp only [apply] <;> (try split) <;> rfl) rs _ hsup
  have e3 := fold_last S (·.limit) (fun | .limit e => some e | _ => none) (by
    intro o r _; cases r <;> simp only [apply] <;> (try split) <;> rfl) rs _ hsup
  have e4 := fold_last S (·.cleanup) (fun | .cleanup e => some e | _ => none) (by
    intro o r _; cases r <;> simp only [apply] <;> (try split) <;> rfl) rs _ hsup
  have e5 := fold_last S (·.numSols) (fun | .num e => some e | _ => none) (by
    intro o r _; cases r <;> simp only [apply] <;> (try split) <;> rfl) rs _ hsup
  have e6 := fold_last S (·.numOptimal)
    (fun r => ((fun | .numOptimal e => some e | _ => none : Req → Option Int) r).map (fun n => decide (n ≠ 0))) (by
    intro o r _; cases r <;> simp only [apply] <;> (try split) <;> rfl) rs _ hsup
  have e7 := fold_any S (·.allOptimal) True .allOptimal (by
    intro o r _; cases r <;> simp only [apply] <;> (try split) <;> simp) rs _ hsup
  have e8 := fold_any S (·.stats) (cs!"-s" ∈ S) .stats (by
    intro o r hS; cases r <;> simp only [apply, hS] <;> (try split) <;> simp [*]) rs _ hsup
  have e9 := fold_any S (·.verbose) True .verbose (by
    intro o r _; cases r <;> simp only [apply] <;> (try split) <;> simp) rs _ hsup
  have e10 := fold_any S (·.paths) True .paths (by
    intro o r _; cases r <;> simp only [apply] <;> (try split) <;> simp) rs _ hsup
  have e11 := fold_flags std S (hS "-r" (by decide)) (hS "-f" (by decide)) rs _ hsup
  have e12 : (rs.foldl apply (setAccepted {} accepted)).parallel =
      if cs!"-p" ∈ S then parallel rs else none := by
    by_cases hc : cs!"-p" ∈ S
    · rw [if_pos hc]
      have := fold_last S (·.parallel) (fun | .parallel e => some (some e) | _ => none) (by
        intro o r hS; cases r <;> simp only [apply, hS, hc, if_true] <;> (try split) <;> rfl) rs _ hsup
      rw [this, h0]; rfl
    · rw [if_neg hc]
      have := fold_last S (·.parallel) (fun _ => none) (by
        intro o r hS; cases r <;> simp only [apply, hS, hc, if_false] <;> (try split) <;> rfl) rs _ hsup
      rw [this, h0]; simp [last]
  have e13 := fold_sup rs (setAccepted {} accepted)
  rw [hsup] at e13
  simp only at e1 e2 e3 e4 e5 e6 e7 e8 e9 e10
  rw [h0] at e1 e2 e3 e4 e5 e6 e7 e8 e9 e10 e11 e12 e13 ⊢
  simp only [true_and, Bool.false_eq_true, false_or] at e1 e2 e3 e4 e5 e6 e7 e8 e9 e10
  generalize rs.foldl apply _ = o at *
  have e6' : o.numOptimal.toInt = numOptimal rs := by
    have hl := last_map (fun | .numOptimal e => some e | _ => none : Req → Option Int) (fun n => decide (n ≠ 0)) 1 rs
    rw [e6, show (true : Bool) = decide ((1 : Int) ≠ 0) from rfl, hl]
    change (decide (numOptimal rs ≠ 0)).toInt = numOptimal rs
    have : numOptimal rs = 0 ∨ numOptimal rs = 1 := by
      rcases last_mem (fun | .numOptimal e => some e | _ => none : Req → Option Int) 1 rs with h | ⟨r, hr, h⟩
      · exact .inr h
      · cases r <;> simp only [reduceCtorEq, Option.some.injEq] at h
        next n => have := hn n hr; rw [h] at this; exact this
    rcases this with h | h <;> rw [h] <;> rfl
  unfold solve
  have e1' : o.solver = exe rs := e1
  have e2' : o.backend = backend rs := e2
  have e3' : o.limit = limit rs := e3
  have e4' : o.cleanup = cleanup rs := e4
  have e5' : o.numSols = num rs := e5
  rw [if_neg (by rw [e1']; exact he)]
  have ht := hS "-t" (by decide)
  have hv := hS "-v" (by decide)
  have hs' := hS "-s" (by decide)
  have hpp := hS "-p" (by decide)
  congr 2
  · unfold expected
    have e11' : o.flags = rs.flatMap (handed std CmdLine.parse) := e11
    rw [e1', e2', e3', e5', e6', e11', e12, e13]
    refine app_congr (app_congr (app_congr (app_congr (app_congr (app_congr (app_congr (app_congr (app_congr
      (app_congr rfl ?_) ?_) ?_) ?_) ?_) ?_) ?_) ?_) rfl) ?_
    · exact opt_congr Iff.rfl
    · exact opt_congr (by rw [e7]; exact and_comm)
    · exact opt_congr and_comm
    · exact opt_congr and_comm
    · by_cases hc : cs!"-p" ∈ S
      · rw [if_pos hc, if_pos (hpp.2 hc)]
        cases parallel rs <;> rfl
      · rw [if_neg hc, if_neg (mt hpp.1 hc)]
    · exact opt_congr (by rw [e8, hs']; rfl)
    · exact opt_congr (by rw [ht]; exact and_comm)
    · exact opt_congr (by rw [hv, e9]; exact and_comm)
    · exact opt_congr e10
  · unfold stopAfter
    rw [e3', e4', e13]
    by_cases hl : limit rs = 0
    · simp [hl]
    · rw [if_pos hl, if_neg hl]
      by_cases hc : cs!"-t" ∈ S
      · rw [if_pos hc, if_pos (ht.2 hc)]
      · rw [if_neg hc, if_neg (mt ht.1 hc)]

/-- **C96** (partly: see `C96_num_optimal_fails` and `C96_short_flag_fails`). Whatever options a user gives, in any
order, any number of times and in any of their spellings, the solver is started with exactly: the arguments meant for
it, in the order given; the standard options that its configuration declares, with the last value given; the FlatZinc
file; and the file of paths if asked for. It is stopped after the time limit, with a grace period if it watches the
limit itself. Numbers of optimal solutions other than 0 and 1 are not covered, nor are flags of the solver that do not
begin with two dashes. -/
theorem _root_.MZ.C96_command_line_partial (rd : W → Option Int) (sh : Int → W) (accepted : List (W × Bool))
    (std : String → Bool) (hstd : ∀ s, std s = true ↔ ∃ b, (s.toList, b) ∈ accepted)
    (hro : rd "-o".toList = none) (hp : ∀ n, (n, true) ∈ accepted → ¬ n <+: "--".toList)
    (rs : List Req) (ws : List (List W)) (hs : List.Forall₂ (Spelled rd accepted) rs ws)
    (hn : ∀ n, Req.numOptimal n ∈ rs → n = 0 ∨ n = 1) (he : exe rs ≠ []) (isSat : Bool) (fzn pth : W) :
    start rd sh accepted ws.flatten isSat fzn pth =
      some (expected std CmdLine.parse sh rs (isSat = true) fzn pth, stopAfter std rs) := by
  unfold start
  rw [all_steps rd accepted hro hp rs ws hs]
  exact solve_fold sh accepted std hstd rs hn he isSat fzn pth

/-- Without a solver nothing is started. -/
theorem _root_.MZ.C96_no_solver (rd : W → Option Int) (sh : Int → W) (accepted : List (W × Bool))
    (hro : rd "-o".toList = none) (hp : ∀ n, (n, true) ∈ accepted → ¬ n <+: "--".toList)
    (rs : List Req) (ws : List (List W)) (hs : List.Forall₂ (Spelled rd accepted) rs ws)
    (he : exe rs = []) (isSat : Bool) (fzn pth : W) :
    start rd sh accepted ws.flatten isSat fzn pth = none := by
  unfold start
  rw [all_steps rd accepted hro hp rs ws hs]
  have e1 := fold_last (setAccepted {} accepted).sup (·.solver) (fun | .solver e => some e | _ => none) (by
    intro o r _; cases r <;> simp only [apply] <;> (try split) <;> rfl) rs (setAccepted {} accepted) rfl
  have h0 : (setAccepted {} accepted).solver = [] := by
    unfold setAccepted
    rw [setAccepted_go]
  simp only [h0] at e1
  simp only [solve]
  rw [if_pos]
  exact e1.trans he

/-- A long option that has no meaning of its own and that the solver does not declare is rejected, whatever comes
before and after it. -/
theorem _root_.MZ.C96_unknown_rejected (rd : W → Option Int) (sh : Int → W) (accepted : List (W × Bool))
    (hro : rd "-o".toList = none) (hp : ∀ n, (n, true) ∈ accepted → ¬ n <+: "--".toList)
    (rs : List Req) (ws : List (List W)) (hs : List.Forall₂ (Spelled rd accepted) rs ws)
    (t : W) (hk : '-' :: '-' :: t ∉ known) (ha : ∀ b, ('-' :: '-' :: t, b) ∉ accepted) (post : List W)
    (isSat : Bool) (fzn pth : W) :
    start rd sh accepted (ws.flatten ++ ('-' :: '-' :: t) :: post) isSat fzn pth = none := by
  unfold start
  obtain ⟨f, hf, h⟩ := all_steps_then rd accepted hro hp (('-' :: '-' :: t) :: post) rs ws hs _ rfl rfl []
    (ws.flatten ++ ('-' :: '-' :: t) :: post).length (Nat.le_refl _)
  simp only [List.nil_append, List.length_nil, Nat.zero_add] at h
  rw [h]
  have hx : ∀ (rs : List Req) (o : Opts), (rs.foldl apply o).extra = o.extra := by
    intro rs
    induction rs with
    | nil => intro o; rfl
    | cons r rs ih => intro o; rw [List.foldl_cons, ih, (apply_sup o r).2]
  have h0 : (ws.flatten ++ ('-' :: '-' :: t) :: post)[ws.flatten.length]? = some ('-' :: '-' :: t) := by simp
  cases f with
  | zero => simp at hf
  | succ f =>
    rw [processAll, if_pos (by simp), process_other rd _ _ _ t h0 hk, extras_none _ _ _ _ h0]
    · intro b
      rw [hx, extra_iff]
      exact fun h => ha b h.1
    · rintro ⟨n, b⟩ hm hb
      rw [hx, extra_iff] at hm
      simp only at hb
      subst hb
      exact not_prefix (hp n hm.1) t

/-- The number of optimal solutions is lost: a solver that declares `-n-o` is started without it, whatever number other
than 0 the user gives (the number is kept in a Boolean). -/
theorem _root_.MZ.C96_num_optimal_fails (rd : W → Option Int) (sh : Int → W) (hro : rd "-o".toList = none)
    (e t fzn pth : W) (he : e ≠ []) (n : Int) (hn : n ≠ 0) (ht : rd t = some n) :
    start rd sh [("-n-o".toList, true)] ["--fzn-cmd".toList, e, "-n-o".toList, t] false fzn pth =
      some ([e, fzn], 0) := by
  have h := all_steps rd [("-n-o".toList, true)] hro (by
      intro n hn
      simp only [List.mem_cons, List.not_mem_nil, or_false, Prod.mk.injEq, and_true] at hn
      subst hn
      decide) [.solver e, .numOptimal n]
    [["--fzn-cmd".toList, e], ["-n-o".toList, t]]
    (.cons (.solver _ _ (by simp)) (.cons (.numOptimal _ _ _ ("-n-o".toList, true) (by simp) rfl (by simp) ht) .nil))
  unfold start
  rw [show ["--fzn-cmd".toList, e, "-n-o".toList, t] = [["--fzn-cmd".toList, e], ["-n-o".toList, t]].flatten from rfl, h]
  simp only [List.foldl_cons, List.foldl_nil, apply]
  have h0 : setAccepted {} [("-n-o".toList, true)] = { sup := ["-n-o".toList] } := by rfl
  rw [h0]
  simp [solve, he, hn]

/-- A flag of the solver that begins with `-r`, such as `-restart`, is lost: it is taken for a random seed. -/
theorem _root_.MZ.C96_short_flag_fails (rd : W → Option Int) (sh : Int → W) (c : Char) (t e fzn pth : W)
    (he : e ≠ []) :
    start rd sh [('-' :: 'r' :: c :: t, false)] ["--fzn-cmd".toList, e, '-' :: 'r' :: c :: t] false fzn pth =
      some ([e, fzn], 0) := by
  have h0 : setAccepted {} [('-' :: 'r' :: c :: t, false)] = { extra := [('-' :: 'r' :: c :: t, false)] } := by
    simp [setAccepted, stdFlags]
  have h1 := step_solver rd (setAccepted {} [('-' :: 'r' :: c :: t, false)])
    ["--fzn-cmd".toList, e, '-' :: 'r' :: c :: t] 0 "--fzn-cmd".toList e rfl rfl (by simp)
  rw [h0] at h1
  have h2 : ∀ o : Opts, o.sup = [] →
      processOption rd o ["--fzn-cmd".toList, e, '-' :: 'r' :: c :: t] 2 = some (o, 2) := by
    intro o ho
    simp [processOption, val, flag, getOption, tryNames, ho]
  have h3 : processAll rd ["--fzn-cmd".toList, e, '-' :: 'r' :: c :: t] (2 + 1) 0
      { extra := [('-' :: 'r' :: c :: t, false)] } =
      some { solver := e, extra := [('-' :: 'r' :: c :: t, false)] } := by
    rw [processAll, if_pos (by simp), h1]
    simp only [apply]
    rw [processAll, if_pos (by simp), h2 _ rfl]
    simp only
    rw [processAll, if_neg (by simp)]
  have h4 : solve sh { solver := e, extra := [('-' :: 'r' :: c :: t, false)] } false fzn pth = some ([e, fzn], 0) := by
    simp [solve, he]
  unfold start
  rw [h0]
  rw [show ["--fzn-cmd".toList, e, '-' :: 'r' :: c :: t].length = 2 + 1 from rfl, h3]
  exact h4

/-- The text read as a number in the examples: digits only. -/
def digits (t : Word) : Option Int :=
  if t ≠ [] ∧ t.all Char.isDigit then some (t.foldl (fun n c => 10 * n + (c.toNat - 48 : Nat)) 0 : Nat) else none

/-- The hypotheses are met by a solver with a time limit, a seed, a number of solutions and flags of its own, started
with options in several spellings, one of them twice. -/
example : start digits (fun n => (toString n).toList)
    [("-n".toList, true), ("-t".toList, true), ("-r".toList, true), ("--cuts".toList, true), ("--fast".toList, false)]
    ([["--fzn-cmd", "slv"], ["-t", "500"], ["--fzn-flags", "-x y"], ["--cuts", "3"], ["-n", "2"], ["-r", "7"],
      ["--free-search"], ["--fast"], ["--solver-time-limit", "900"]].map (·.map String.toList)).flatten
    true "m.fzn".toList "m.paths".toList =
    some (["slv", "-x", "y", "--cuts", "3", "-r", "7", "--fast", "-n", "2", "-t", "900", "m.fzn"].map String.toList,
      1900) := by
  decide +kernel

example : List.Forall₂ (Spelled digits [("-n".toList, true), ("--cuts".toList, true), ("--fast".toList, false)])
    [.solver "slv".toList, .num 2, .extraArg "--cuts".toList "3".toList, .extra "--fast".toList, .limit 900, .parallel 4]
    ([["--fzn-cmd", "slv"], ["-n", "2"], ["--cuts", "3"], ["--fast"], ["--solver-time-limit", "900"], ["-p4"]].map
      (·.map String.toList)) := by
  refine .cons (.solver _ _ (by decide)) (.cons (.num _ _ 2 ("-n".toList, true) (by decide) rfl (by decide) (by decide))
    (.cons (.extraArg "cuts".toList _ (by decide) (by decide) (by decide))
    (.cons (.extra "fast".toList (by decide) (by decide) (by decide))
    (.cons (.limit _ _ 900 (by decide) (by decide)) (.cons (.parallelJoined '4' [] 4 (by decide)) .nil)))))

example : digits "-o".toList = none := by decide

end FznCmd
end MZ
