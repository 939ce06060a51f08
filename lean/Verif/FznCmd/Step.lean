import Verif.FznCmd.Model
import Verif.FznCmd.Spec
/-! # Reading one option -/
namespace MZ
namespace FznCmd
open Options Spec

/-- What an option does to the options read so far. -/
def apply (o : Opts) : Req → Opts
  | .solver e => { o with solver := e }
  | .backend b => { o with backend := b }
  | .words t => { o with flags := o.flags ++ CmdLine.parse t }
  | .word w => { o with flags := o.flags ++ [w] }
  | .limit n => { o with limit := n }
  | .cleanup n => { o with cleanup := n }
  | .sigint => { o with sigint := true }
  | .paths => { o with paths := true }
  | .passthrough => { o with passthrough := true }
  | .interactive => { o with interactive := true }
  | .all => { o with flags := o.flags ++ [cs!"-a"] }
  | .intermediate => { o with flags := o.flags ++ [cs!"-i"] }
  | .num n => { o with numSols := n }
  | .numOptimal n => { o with numOptimal := decide (n ≠ 0) }
  | .allOptimal => { o with allOptimal := true }
  | .parallel n => if cs!"-p" ∈ o.sup then { o with parallel := some n } else o
  | .keep => o
  | .seed s => if cs!"-r" ∈ o.sup then { o with flags := o.flags ++ [cs!"-r", s] } else o
  | .stats => if cs!"-s" ∈ o.sup then { o with stats := true } else o
  | .verbose => { o with verbose := true }
  | .free => if cs!"-f" ∈ o.sup then { o with flags := o.flags ++ [cs!"-f"] } else o
  | .profiler s => { o with flags := o.flags ++ [cs!"--cp-profiler", s] }
  | .extra n => { o with flags := o.flags ++ [n] }
  | .extraArg n v => { o with flags := o.flags ++ [n, v] }

theorem tryNames_miss {V : Type} (read : Option (Word → Option V)) (b : Bool) (argv : List Word) (i : Nat)
    (arg : Word) : ∀ names : List Word, (∀ k ∈ names, arg ≠ k ∧ (2 < k.length ∨ read.isNone ∨ arg.take k.length ≠ k)) →
    tryNames read b argv i arg names = ⟨false, i, none⟩
  | [], _ => rfl
  | k :: ks, h => by
    have hk := h k (by simp)
    have ih := tryNames_miss read b argv i arg ks fun k hk => h k (by simp [hk])
    rw [tryNames.eq_def]
    simp only
    rw [if_pos, ih]
    rcases hk.2 with h2 | h2 | h2
    · exact .inl ⟨.inl h2, hk.1⟩
    · exact .inl ⟨.inr h2, hk.1⟩
    · exact .inr h2

theorem val_miss {V R : Type} {names : List Word} {rd : Word → Option V} {argv : List Word} {i : Nat}
    {k : V → Nat → R} {e : R} {arg : Word} (h0 : argv[i]? = some arg)
    (h : ∀ k ∈ names, arg ≠ k ∧ (2 < k.length ∨ arg.take k.length ≠ k)) : val names rd argv i k e = e := by
  unfold val getOption
  rw [h0]
  simp only
  rw [tryNames_miss _ _ _ _ _ _ fun k hk => ⟨(h k hk).1, (h k hk).2.elim .inl fun h => .inr (.inr h)⟩]

theorem flag_miss {R : Type} {names : List Word} {argv : List Word} {i : Nat}
    {k : R} {e : R} {arg : Word} (h0 : argv[i]? = some arg)
    (h : arg ∉ names) : flag names argv i k e = e := by
  unfold flag getOption
  rw [h0]
  simp only
  have := tryNames_miss (V := Unit) none false argv i arg names
    fun k hk => ⟨fun he => h (by rw [he]; exact hk), .inr (.inl rfl)⟩
  simp [this]

theorem tryNames_hit {V : Type} (rd : Word → Option V) (b : Bool) (argv : List Word) (i : Nat)
    (arg v : Word) (x : V) (h1 : argv[i + 1]? = some v) (hx : rd v = some x) :
    ∀ (names : List Word), arg ∈ names → (∀ k ∈ names, k ≠ arg → 2 < k.length ∨ arg.take k.length ≠ k) →
    tryNames (some rd) b argv i arg names = ⟨true, i + 1, some x⟩
  | [], h, _ => by simp at h
  | k :: ks, h, hp => by
    by_cases he : k = arg
    · subst he
      simp [tryNames, h1, hx]
    · rw [tryNames, if_pos, tryNames_hit rd b argv i arg v x h1 hx ks
        ((List.mem_cons.1 h).resolve_left fun h => he h.symm) fun k hk => hp k (by simp [hk])]
      rcases hp k (by simp) he with h2 | h2
      · exact .inl ⟨.inl h2, fun h => he h.symm⟩
      · exact .inr h2

theorem val_hit {V R : Type} {names : List Word} {rd : Word → Option V} {argv : List Word} {i : Nat}
    {k : V → Nat → R} {e : R} {arg v : Word} {x : V} (h0 : argv[i]? = some arg) (h1 : argv[i + 1]? = some v)
    (hx : rd v = some x) (hm : arg ∈ names)
    (hp : ∀ k ∈ names, k ≠ arg → 2 < k.length ∨ arg.take k.length ≠ k) :
    val names rd argv i k e = k x (i + 1) := by
  unfold val getOption
  rw [h0]
  simp only
  rw [tryNames_hit rd _ _ _ _ v x h1 hx _ hm hp]

theorem tryNames_flag (b : Bool) (argv : List Word) (i : Nat) (arg : Word) :
    ∀ (names : List Word), arg ∈ names →
    tryNames (V := Unit) none b argv i arg names = ⟨true, i, none⟩
  | [], h => by simp at h
  | k :: ks, h => by
    by_cases he : k = arg
    · subst he
      simp [tryNames]
    · rw [tryNames, if_pos (.inl ⟨.inr rfl, fun h => he h.symm⟩), tryNames_flag b argv i arg ks
        ((List.mem_cons.1 h).resolve_left fun h => he h.symm)]

theorem flag_hit {R : Type} {names : List Word} {argv : List Word} {i : Nat}
    {k : R} {e : R} {arg : Word} (h0 : argv[i]? = some arg)
    (h : arg ∈ names) : flag names argv i k e = k := by
  unfold flag getOption
  rw [h0]
  simp only
  simp [tryNames_flag false argv i arg names h]

theorem step_solver (rd : Word → Option Int) (o : Opts) (argv : List Word) (i : Nat) (k v : Word)
    (h0 : argv[i]? = some k) (h1 : argv[i + 1]? = some v)
    (hk : k ∈ ["--fzn-cmd", "--flatzinc-cmd"].map String.toList) :
    processOption rd o argv i = some (apply o (.solver v), i + 1) := by
  simp only [List.map_cons, List.map_nil, List.mem_cons, List.not_mem_nil, or_false] at hk
  rcases hk with rfl | rfl
  all_goals
    unfold processOption
    simp (decide := true) only [apply, val_miss h0, flag_miss h0, val_hit h0 h1 rfl, flag_hit h0, ite_self]

theorem step_backend (rd : Word → Option Int) (o : Opts) (argv : List Word) (i : Nat) (k v : Word)
    (h0 : argv[i]? = some k) (h1 : argv[i + 1]? = some v)
    (hk : k ∈ ["-b", "--backend", "--solver-backend"].map String.toList) :
    processOption rd o argv i = some (apply o (.backend v), i + 1) := by
  simp only [List.map_cons, List.map_nil, List.mem_cons, List.not_mem_nil, or_false] at hk
  rcases hk with rfl | rfl | rfl
  all_goals
    unfold processOption
    simp (decide := true) only [apply, val_miss h0, flag_miss h0, val_hit h0 h1 rfl, flag_hit h0, ite_self]

theorem step_words (rd : Word → Option Int) (o : Opts) (argv : List Word) (i : Nat) (k v : Word)
    (h0 : argv[i]? = some k) (h1 : argv[i + 1]? = some v)
    (hk : k ∈ ["--fzn-flags", "--flatzinc-flags", "--backend-flags"].map String.toList) :
    processOption rd o argv i = some (apply o (.words v), i + 1) := by
  simp only [List.map_cons, List.map_nil, List.mem_cons, List.not_mem_nil, or_false] at hk
  rcases hk with rfl | rfl | rfl
  all_goals
    unfold processOption
    simp (decide := true) only [apply, val_miss h0, flag_miss h0, val_hit h0 h1 rfl, flag_hit h0, ite_self]

theorem step_word (rd : Word → Option Int) (o : Opts) (argv : List Word) (i : Nat) (k v : Word)
    (h0 : argv[i]? = some k) (h1 : argv[i + 1]? = some v)
    (hk : k ∈ ["--fzn-flag", "--flatzinc-flag", "--backend-flag"].map String.toList) :
    processOption rd o argv i = some (apply o (.word v), i + 1) := by
  simp only [List.map_cons, List.map_nil, List.mem_cons, List.not_mem_nil, or_false] at hk
  rcases hk with rfl | rfl | rfl
  all_goals
    unfold processOption
    simp (decide := true) only [apply, val_miss h0, flag_miss h0, val_hit h0 h1 rfl, flag_hit h0, ite_self]

theorem step_limit (rd : Word → Option Int) (o : Opts) (argv : List Word) (i : Nat) (k v : Word) (n : Int)
    (h0 : argv[i]? = some k) (h1 : argv[i + 1]? = some v) (hx : rd v = some n)
    (hk : k ∈ ["-t", "--solver-time-limit"].map String.toList) :
    processOption rd o argv i = some (apply o (.limit n), i + 1) := by
  simp only [List.map_cons, List.map_nil, List.mem_cons, List.not_mem_nil, or_false] at hk
  rcases hk with rfl | rfl
  all_goals
    unfold processOption
    simp (decide := true) only [apply, val_miss h0, flag_miss h0, val_hit h0 h1 hx, flag_hit h0, ite_self]

theorem step_cleanup (rd : Word → Option Int) (o : Opts) (argv : List Word) (i : Nat) (k v : Word) (n : Int)
    (h0 : argv[i]? = some k) (h1 : argv[i + 1]? = some v) (hx : rd v = some n)
    (hk : k ∈ ["--cleanup-time-limit"].map String.toList) :
    processOption rd o argv i = some (apply o (.cleanup n), i + 1) := by
  simp only [List.map_cons, List.map_nil, List.mem_cons, List.not_mem_nil, or_false] at hk
  subst hk
  all_goals
    unfold processOption
    simp (decide := true) only [apply, val_miss h0, flag_miss h0, val_hit h0 h1 hx, flag_hit h0, ite_self]

theorem step_sigint (rd : Word → Option Int) (o : Opts) (argv : List Word) (i : Nat) (k : Word)
    (h0 : argv[i]? = some k)
    (hk : k ∈ ["--fzn-sigint"].map String.toList) :
    processOption rd o argv i = some (apply o .sigint, i) := by
  simp only [List.map_cons, List.map_nil, List.mem_cons, List.not_mem_nil, or_false] at hk
  subst hk
  all_goals
    unfold processOption
    simp (decide := true) only [apply, val_miss h0, flag_miss h0, flag_hit h0, ite_self]

theorem step_paths (rd : Word → Option Int) (o : Opts) (argv : List Word) (i : Nat) (k : Word)
    (h0 : argv[i]? = some k)
    (hk : k ∈ ["--fzn-needs-paths"].map String.toList) :
    processOption rd o argv i = some (apply o .paths, i) := by
  simp only [List.map_cons, List.map_nil, List.mem_cons, List.not_mem_nil, or_false] at hk
  subst hk
  all_goals
    unfold processOption
    simp (decide := true) only [apply, val_miss h0, flag_miss h0, flag_hit h0, ite_self]

theorem step_passthrough (rd : Word → Option Int) (o : Opts) (argv : List Word) (i : Nat) (k : Word)
    (h0 : argv[i]? = some k)
    (hk : k ∈ ["--fzn-output-passthrough"].map String.toList) :
    processOption rd o argv i = some (apply o .passthrough, i) := by
  simp only [List.map_cons, List.map_nil, List.mem_cons, List.not_mem_nil, or_false] at hk
  subst hk
  all_goals
    unfold processOption
    simp (decide := true) only [apply, val_miss h0, flag_miss h0, flag_hit h0, ite_self]

theorem step_interactive (rd : Word → Option Int) (o : Opts) (argv : List Word) (i : Nat) (k : Word)
    (h0 : argv[i]? = some k)
    (hk : k ∈ ["--fzn-interactive"].map String.toList) :
    processOption rd o argv i = some (apply o .interactive, i) := by
  simp only [List.map_cons, List.map_nil, List.mem_cons, List.not_mem_nil, or_false] at hk
  subst hk
  all_goals
    unfold processOption
    simp (decide := true) only [apply, val_miss h0, flag_miss h0, flag_hit h0, ite_self]

theorem step_all (rd : Word → Option Int) (o : Opts) (argv : List Word) (i : Nat) (k : Word)
    (h0 : argv[i]? = some k)
    (hk : k ∈ ["-a"].map String.toList) :
    processOption rd o argv i = some (apply o .all, i) := by
  simp only [List.map_cons, List.map_nil, List.mem_cons, List.not_mem_nil, or_false] at hk
  subst hk
  all_goals
    unfold processOption
    simp (decide := true) only [apply, val_miss h0, flag_miss h0, flag_hit h0, ite_self]

theorem step_intermediate (rd : Word → Option Int) (o : Opts) (argv : List Word) (i : Nat) (k : Word)
    (h0 : argv[i]? = some k)
    (hk : k ∈ ["-i"].map String.toList) :
    processOption rd o argv i = some (apply o .intermediate, i) := by
  simp only [List.map_cons, List.map_nil, List.mem_cons, List.not_mem_nil, or_false] at hk
  subst hk
  all_goals
    unfold processOption
    simp (decide := true) only [apply, val_miss h0, flag_miss h0, flag_hit h0, ite_self]

theorem step_num (rd : Word → Option Int) (o : Opts) (argv : List Word) (i : Nat) (k v : Word) (n : Int)
    (h0 : argv[i]? = some k) (h1 : argv[i + 1]? = some v) (hx : rd v = some n) (hs : cs!"-n" ∈ o.sup)
    (hk : k ∈ ["-n", "--num-solutions"].map String.toList) :
    processOption rd o argv i = some (apply o (.num n), i + 1) := by
  simp only [List.map_cons, List.map_nil, List.mem_cons, List.not_mem_nil, or_false] at hk
  rcases hk with rfl | rfl
  all_goals
    unfold processOption
    simp (decide := true) only [apply, val_miss h0, flag_miss h0, val_hit h0 h1 hx, flag_hit h0, ite_self, hs, if_true]

theorem step_numOptimal (rd : Word → Option Int) (o : Opts) (argv : List Word) (i : Nat) (k v : Word) (n : Int)
    (h0 : argv[i]? = some k) (h1 : argv[i + 1]? = some v) (hx : rd v = some n) (hs : cs!"-n-o" ∈ o.sup)
    (hro : rd (cs!"-o") = none)
    (hk : k ∈ ["-n-o", "--num-optimal"].map String.toList) :
    processOption rd o argv i = some (apply o (.numOptimal n), i + 1) := by
  simp only [List.map_cons, List.map_nil, List.mem_cons, List.not_mem_nil, or_false] at hk
  rcases hk with rfl | rfl
  · unfold processOption
    have hm : ∀ (f : Int → Nat → Option (Opts × Nat)) (e : Option (Opts × Nat)),
        val [cs!"-n", cs!"--num-solutions"] rd argv i f e = e := by
      intro f e
      unfold val getOption
      simp [h0, tryNames, hro]
    simp (decide := true) only [apply, val_miss h0, flag_miss h0, val_hit h0 h1 hx, ite_self, hs, if_true, hm]
  · unfold processOption
    simp (decide := true) only [apply, val_miss h0, flag_miss h0, val_hit h0 h1 hx, flag_hit h0, ite_self, hs, if_true]

theorem step_allOptimal (rd : Word → Option Int) (o : Opts) (argv : List Word) (i : Nat) (k : Word)
    (h0 : argv[i]? = some k) (hs : cs!"-a-o" ∈ o.sup)
    (hk : k ∈ ["-a-o", "--all-opt", "--all-optimal"].map String.toList) :
    processOption rd o argv i = some (apply o .allOptimal, i) := by
  simp only [List.map_cons, List.map_nil, List.mem_cons, List.not_mem_nil, or_false] at hk
  rcases hk with rfl | rfl | rfl
  all_goals
    unfold processOption
    simp (decide := true) only [apply, val_miss h0, flag_miss h0, flag_hit h0, ite_self, hs, if_true]

theorem step_parallel (rd : Word → Option Int) (o : Opts) (argv : List Word) (i : Nat) (k v : Word) (n : Int)
    (h0 : argv[i]? = some k) (h1 : argv[i + 1]? = some v) (hx : rd v = some n)
    (hk : k ∈ ["-p", "--parallel"].map String.toList) :
    processOption rd o argv i = some (apply o (.parallel n), i + 1) := by
  simp only [List.map_cons, List.map_nil, List.mem_cons, List.not_mem_nil, or_false] at hk
  rcases hk with rfl | rfl
  all_goals
    unfold processOption
    simp (decide := true) only [apply, val_miss h0, flag_miss h0, val_hit h0 h1 hx, flag_hit h0, ite_self]

theorem step_keep (rd : Word → Option Int) (o : Opts) (argv : List Word) (i : Nat) (k : Word)
    (h0 : argv[i]? = some k)
    (hk : k ∈ ["-k", "--keep-files"].map String.toList) :
    processOption rd o argv i = some (apply o .keep, i) := by
  simp only [List.map_cons, List.map_nil, List.mem_cons, List.not_mem_nil, or_false] at hk
  rcases hk with rfl | rfl
  all_goals
    unfold processOption
    simp (decide := true) only [apply, val_miss h0, flag_miss h0, flag_hit h0, ite_self]

theorem step_seed (rd : Word → Option Int) (o : Opts) (argv : List Word) (i : Nat) (k v : Word)
    (h0 : argv[i]? = some k) (h1 : argv[i + 1]? = some v)
    (hk : k ∈ ["-r", "--seed", "--random-seed"].map String.toList) :
    processOption rd o argv i = some (apply o (.seed v), i + 1) := by
  simp only [List.map_cons, List.map_nil, List.mem_cons, List.not_mem_nil, or_false] at hk
  rcases hk with rfl | rfl | rfl
  all_goals
    unfold processOption
    simp (decide := true) only [apply, val_miss h0, flag_miss h0, val_hit h0 h1 rfl, flag_hit h0, ite_self]

theorem step_stats (rd : Word → Option Int) (o : Opts) (argv : List Word) (i : Nat) (k : Word)
    (h0 : argv[i]? = some k)
    (hk : k ∈ ["-s", "--solver-statistics"].map String.toList) :
    processOption rd o argv i = some (apply o .stats, i) := by
  simp only [List.map_cons, List.map_nil, List.mem_cons, List.not_mem_nil, or_false] at hk
  rcases hk with rfl | rfl
  all_goals
    unfold processOption
    simp (decide := true) only [apply, val_miss h0, flag_miss h0, flag_hit h0, ite_self]

theorem step_verbose (rd : Word → Option Int) (o : Opts) (argv : List Word) (i : Nat) (k : Word)
    (h0 : argv[i]? = some k)
    (hk : k ∈ ["-v", "--verbose-solving"].map String.toList) :
    processOption rd o argv i = some (apply o .verbose, i) := by
  simp only [List.map_cons, List.map_nil, List.mem_cons, List.not_mem_nil, or_false] at hk
  rcases hk with rfl | rfl
  all_goals
    unfold processOption
    simp (decide := true) only [apply, val_miss h0, flag_miss h0, flag_hit h0, ite_self]

theorem step_free (rd : Word → Option Int) (o : Opts) (argv : List Word) (i : Nat) (k : Word)
    (h0 : argv[i]? = some k)
    (hk : k ∈ ["-f", "--free-search"].map String.toList) :
    processOption rd o argv i = some (apply o .free, i) := by
  simp only [List.map_cons, List.map_nil, List.mem_cons, List.not_mem_nil, or_false] at hk
  rcases hk with rfl | rfl
  all_goals
    unfold processOption
    simp (decide := true) only [apply, val_miss h0, flag_miss h0, flag_hit h0, ite_self]

theorem step_profiler (rd : Word → Option Int) (o : Opts) (argv : List Word) (i : Nat) (k v : Word)
    (h0 : argv[i]? = some k) (h1 : argv[i + 1]? = some v) (hs : cs!"--cp-profiler" ∈ o.sup)
    (hk : k ∈ ["--cp-profiler"].map String.toList) :
    processOption rd o argv i = some (apply o (.profiler v), i + 1) := by
  simp only [List.map_cons, List.map_nil, List.mem_cons, List.not_mem_nil, or_false] at hk
  subst hk
  all_goals
    unfold processOption
    simp (decide := true) only [apply, val_miss h0, flag_miss h0, val_hit h0 h1 rfl, flag_hit h0, ite_self, hs, if_true]

theorem val_other {V R : Type} {names : List Word} {rd : Word → Option V} {argv : List Word} {i : Nat}
    {k : V → Nat → R} {e : R} {t : Word} (h0 : argv[i]? = some ('-' :: '-' :: t)) (hk : '-' :: '-' :: t ∉ known)
    (hn : ∀ k ∈ names, k ∈ known ∧ (2 < k.length ∨ k.length = 2 ∧ k ≠ cs!"--")) : val names rd argv i k e = e := by
  refine val_miss h0 fun k hm => ⟨fun he => hk (by rw [he]; exact (hn k hm).1), (hn k hm).2.imp_right ?_⟩
  rintro ⟨h2, hne⟩ he
  rw [h2] at he
  exact hne (by rw [← he]; rfl)

theorem flag_other {R : Type} {names : List Word} {argv : List Word} {i : Nat}
    {k : R} {e : R} {t : Word} (h0 : argv[i]? = some ('-' :: '-' :: t)) (hk : '-' :: '-' :: t ∉ known)
    (hn : ∀ k ∈ names, k ∈ known) : flag names argv i k e = e :=
  flag_miss h0 fun h => hk (hn _ h)

theorem process_other (rd : Word → Option Int) (o : Opts) (argv : List Word) (i : Nat) (t : Word)
    (h0 : argv[i]? = some ('-' :: '-' :: t)) (hk : '-' :: '-' :: t ∉ known) :
    processOption rd o argv i = extras o argv i o.extra := by
  unfold processOption
  simp (decide := true) only [val_other h0 hk, flag_other h0 hk, ite_self]

theorem extras_flag (o : Opts) (argv : List Word) (i : Nat) (n : Word) (h0 : argv[i]? = some n) :
    ∀ fs : List (Word × Bool), (n, false) ∈ fs → (n, true) ∉ fs → (∀ f ∈ fs, f.2 = true → 2 < f.1.length ∨ n.take f.1.length ≠ f.1) →
    extras o argv i fs = some ({ o with flags := o.flags ++ [n] }, i)
  | [], h, _, _ => by simp at h
  | (m, true) :: fs, h, hn, hl => by
    rw [extras, val_miss h0, extras_flag o argv i n h0 fs (by simpa using h) (fun h => hn (by simp [h]))
      fun f hf => hl f (by simp [hf])]
    intro k hk
    simp only [List.mem_cons, List.not_mem_nil, or_false] at hk
    subst hk
    exact ⟨fun h => hn (by simp [h]), hl (k, true) (by simp) rfl⟩
  | (m, false) :: fs, h, hn, hl => by
    by_cases hm : n = m
    · subst hm
      rw [extras, flag_hit h0 (by simp)]
    · rw [extras, flag_miss h0 (by simpa using hm), extras_flag o argv i n h0 fs (by simpa [hm] using h)
        (fun h => hn (by simp [h])) fun f hf => hl f (by simp [hf])]

theorem extras_val (o : Opts) (argv : List Word) (i : Nat) (n v : Word) (h0 : argv[i]? = some n)
    (h1 : argv[i + 1]? = some v) :
    ∀ fs : List (Word × Bool), (n, true) ∈ fs → (n, false) ∉ fs → (∀ f ∈ fs, f.2 = true → 2 < f.1.length ∨ n.take f.1.length ≠ f.1) →
    extras o argv i fs = some ({ o with flags := o.flags ++ [n, v] }, i + 1)
  | [], h, _, _ => by simp at h
  | (m, false) :: fs, h, hn, hl => by
    rw [extras, flag_miss h0, extras_val o argv i n v h0 h1 fs (by simpa using h) (fun h => hn (by simp [h]))
      fun f hf => hl f (by simp [hf])]
    simp only [List.mem_cons, List.not_mem_nil, or_false]
    exact fun h => hn (by simp [h])
  | (m, true) :: fs, h, hn, hl => by
    by_cases hm : n = m
    · subst hm
      rw [extras, val_hit h0 h1 rfl (by simp) (by simp)]
    · rw [extras, val_miss h0, extras_val o argv i n v h0 h1 fs (by simpa [hm] using h)
        (fun h => hn (by simp [h])) fun f hf => hl f (by simp [hf])]
      intro k hk
      simp only [List.mem_cons, List.not_mem_nil, or_false] at hk
      subst hk
      exact ⟨hm, hl (k, true) (by simp) rfl⟩

theorem val_short {V R : Type} {names : List Word} {rd : Word → Option V} {argv : List Word} {i : Nat}
    {k : V → Nat → R} {e : R} {a c : Char} {t : Word} (h0 : argv[i]? = some ('-' :: a :: c :: t))
    (hn : ∀ k ∈ names, 2 ≤ k.length ∧ k.take 2 ≠ ['-', a]) : val names rd argv i k e = e := by
  refine val_miss h0 fun k hk => ?_
  obtain ⟨h2, h3⟩ := hn k hk
  refine ⟨fun he => h3 (by rw [← he]; rfl), .inr fun he => h3 ?_⟩
  rw [← he, List.take_take, Nat.min_eq_left h2]
  rfl

theorem flag_short {R : Type} {names : List Word} {argv : List Word} {i : Nat}
    {k : R} {e : R} {a c : Char} {t : Word} (h0 : argv[i]? = some ('-' :: a :: c :: t))
    (hn : ∀ k ∈ names, k.length = 2 ∨ k.take 2 ≠ ['-', a]) : flag names argv i k e = e := by
  refine flag_miss h0 fun hk => ?_
  rcases hn _ hk with h | h
  · simp at h
  · exact h rfl

theorem val_joined {V R : Type} {ks : List Word} {rd : Word → Option V} {argv : List Word} {i : Nat}
    {k : V → Nat → R} {e : R} {a c : Char} {t : Word} {x : V} (h0 : argv[i]? = some ('-' :: a :: c :: t))
    (hx : rd (c :: t) = some x) : val (['-', a] :: ks) rd argv i k e = k x i := by
  unfold val getOption
  simp [h0, tryNames, hx]

theorem step_backendJoined (rd : Word → Option Int) (o : Opts) (argv : List Word) (i : Nat) (c : Char) (v : Word)
    (h0 : argv[i]? = some ('-' :: 'b' :: c :: v)) :
    processOption rd o argv i = some (apply o (.backend (c :: v)), i) := by
  unfold processOption
  simp (decide := true) only [apply, val_short h0, flag_short h0, val_joined h0 rfl, ite_self]

theorem step_limitJoined (rd : Word → Option Int) (o : Opts) (argv : List Word) (i : Nat) (c : Char) (v : Word) (n : Int)
    (h0 : argv[i]? = some ('-' :: 't' :: c :: v)) (hx : rd (c :: v) = some n) :
    processOption rd o argv i = some (apply o (.limit n), i) := by
  unfold processOption
  simp (decide := true) only [apply, val_short h0, flag_short h0, val_joined h0 hx, ite_self]

theorem step_numJoined (rd : Word → Option Int) (o : Opts) (argv : List Word) (i : Nat) (c : Char) (v : Word) (n : Int)
    (h0 : argv[i]? = some ('-' :: 'n' :: c :: v)) (hx : rd (c :: v) = some n) (hs : cs!"-n" ∈ o.sup) :
    processOption rd o argv i = some (apply o (.num n), i) := by
  unfold processOption
  simp (decide := true) only [apply, val_short h0, flag_short h0, val_joined h0 hx, ite_self, hs, if_true]

theorem step_parallelJoined (rd : Word → Option Int) (o : Opts) (argv : List Word) (i : Nat) (c : Char) (v : Word) (n : Int)
    (h0 : argv[i]? = some ('-' :: 'p' :: c :: v)) (hx : rd (c :: v) = some n) :
    processOption rd o argv i = some (apply o (.parallel n), i) := by
  unfold processOption
  simp (decide := true) only [apply, val_short h0, flag_short h0, val_joined h0 hx, ite_self]

theorem step_seedJoined (rd : Word → Option Int) (o : Opts) (argv : List Word) (i : Nat) (c : Char) (v : Word)
    (h0 : argv[i]? = some ('-' :: 'r' :: c :: v)) :
    processOption rd o argv i = some (apply o (.seed (c :: v)), i) := by
  unfold processOption
  simp (decide := true) only [apply, val_short h0, flag_short h0, val_joined h0 rfl, ite_self]

end FznCmd
end MZ
