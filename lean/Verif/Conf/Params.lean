import Verif.Conf.Select
import Verif.CmdLine.Props

/-! # Default options, parameter files, and the expansion of the command line -/

namespace MZ
namespace Conf

/-! ## Default options -/

theorem find_append_none {α} (k : Str) (v : α) (k' : Str) : ∀ m : List (Str × α),
    find k' (m ++ [(k, v)]) = match find k' m with | some x => some x | none => if k = k' then some v else none
  | [] => by simp [find]
  | (k0, v0) :: m => by
    rw [List.cons_append, find, find, find_append_none k v k' m]
    by_cases h : k0 = k'
    · simp [h]
    · simp [h]

theorem find_assign {α} (k : Str) (v : α) (k' : Str) : ∀ m : List (Str × α),
    find k' (assign k v m) = if k = k' then some v else find k' m
  | [] => by simp [assign, find]
  | (k0, v0) :: m => by
    rw [assign]
    by_cases h0 : k0 = k
    · subst h0
      rw [if_pos rfl, find, find]
      by_cases h : k0 = k'
      · simp [h]
      · simp [h]
    · rw [if_neg h0, find, find, find_assign k v k' m]
      by_cases h : k0 = k'
      · subst h
        rw [if_pos rfl, if_pos rfl, if_neg (fun e => h0 e.symm)]
      · simp [h]

theorem find_addDefault (m : List (Str × List Str)) (e : Str × Str × Str) (id : Str) :
    find id (addDefault m e) = if e.1 = id then
      some (match find id m with | none => [e.2.1, e.2.2] | some opts => setOption e.2.1 e.2.2 opts) else find id m := by
  unfold addDefault
  by_cases h : e.1 = id
  · subst h
    rw [if_pos rfl]
    cases hf : find e.1 m with
    | none => simp [find_append_none, hf]
    | some opts => simp [find_assign]
  · rw [if_neg h]
    cases hf : find e.1 m with
    | none =>
      simp only [find_append_none, if_neg h]
      cases find id m <;> rfl
    | some opts => simp [find_assign, h]

theorem setOption_flatMap (o v : Str) (f : Str → Str) : ∀ names : List Str, names.Nodup →
    setOption o v (names.flatMap (fun n => [n, f n])) =
      (if o ∈ names then names else names ++ [o]).flatMap (fun n => [n, if n = o then v else f n])
  | [], _ => by simp [setOption]
  | n :: names, h => by
    have hn := List.nodup_cons.1 h
    show setOption o v (n :: f n :: names.flatMap (fun n => [n, f n])) = _
    rw [setOption]
    by_cases e : n = o
    · subst e
      rw [if_pos rfl, if_pos List.mem_cons_self, List.flatMap_cons, if_pos rfl]
      have : names.flatMap (fun m => [m, if m = n then v else f m]) = names.flatMap (fun m => [m, f m]) := by
        refine List.flatMap_congr fun m hm => ?_
        rw [if_neg (fun e : m = n => hn.1 (e ▸ hm))]
      rw [this]
      rfl
    · rw [if_neg e, setOption_flatMap o v f names hn.2]
      have : o ∈ n :: names ↔ o ∈ names := by
        rw [List.mem_cons]
        exact ⟨fun h => h.resolve_left (fun e' => e e'.symm), Or.inr⟩
      by_cases ho : o ∈ names
      · rw [if_pos ho, if_pos (this.2 ho), List.flatMap_cons, if_neg e]
        rfl
      · rw [if_neg ho, if_neg (fun h => ho (this.1 h)), List.cons_append, List.flatMap_cons, if_neg e]
        rfl

theorem nodup_eraseDups : ∀ (n : Nat) (l : List Str), l.length ≤ n → l.eraseDups.Nodup
  | _, [], _ => by simp
  | 0, _ :: _, h => by simp at h
  | n + 1, a :: l, h => by
    rw [List.eraseDups_cons, List.nodup_cons]
    refine ⟨?_, nodup_eraseDups n _ ?_⟩
    · rw [List.mem_eraseDups]
      simp
    · have := List.length_filter_le (fun b => !b == a) l
      simp at h
      omega

/-- The options as a list in which names and values alternate. -/
def optionList (entries : List (Str × Str × Str)) (id : Str) : List Str :=
  (optionNames entries id).flatMap (fun o => [o, lastValue entries id o])

theorem optionNames_append (entries : List (Str × Str × Str)) (e : Str × Str × Str) (id : Str) (he : e.1 = id) :
    optionNames (entries ++ [e]) id =
      if e.2.1 ∈ optionNames entries id then optionNames entries id else optionNames entries id ++ [e.2.1] := by
  unfold optionNames
  rw [List.filter_append, List.map_append, List.eraseDups_append]
  simp only [List.filter_cons, he, decide_true, if_true, List.filter_nil, List.map_cons, List.map_nil, List.mem_eraseDups]
  by_cases h : e.2.1 ∈ (entries.filter (fun e => decide (e.1 = id))).map (fun e => e.2.1)
  · rw [if_pos h]
    have : [e.2.1].removeAll ((entries.filter (fun e => decide (e.1 = id))).map (fun e => e.2.1)) = [] := by
      simp only [List.removeAll, List.filter_cons, List.filter_nil]
      rw [if_neg]
      simpa using h
    rw [this]; simp
  · rw [if_neg h]
    have : [e.2.1].removeAll ((entries.filter (fun e => decide (e.1 = id))).map (fun e => e.2.1)) = [e.2.1] := by
      simp only [List.removeAll, List.filter_cons, List.filter_nil]
      rw [if_pos]
      simpa using h
    rw [this]; simp [List.eraseDups_cons]

theorem lastValue_append (entries : List (Str × Str × Str)) (e : Str × Str × Str) (id o : Str) (he : e.1 = id) :
    lastValue (entries ++ [e]) id o = if o = e.2.1 then e.2.2 else lastValue entries id o := by
  unfold lastValue
  rw [List.filter_append, List.map_append]
  by_cases h : o = e.2.1
  · subst h
    simp [he]
  · rw [if_neg h]
    have : ([e].filter (fun e => decide (e.1 = id ∧ e.2.1 = o))) = [] := by
      rw [List.filter_cons, if_neg]
      · rfl
      · simp [he]
        exact fun e => h e.symm
    rw [this]; simp

theorem options_table (id : Str) : ∀ entries : List (Str × Str × Str),
    find id (entries.foldl addDefault []) =
      if entries.filter (fun e => e.1 = id) = [] then none else some (optionList entries id) := by
  intro entries
  induction entries using List.reverseRecOn with
  | nil => rfl
  | append_singleton entries e ih =>
    rw [List.foldl_append, List.foldl_cons, List.foldl_nil, find_addDefault, ih, List.filter_append]
    by_cases he : e.1 = id
    · rw [if_pos he]
      have h1 : [e].filter (fun e => decide (e.1 = id)) = [e] := by simp [he]
      rw [h1, if_neg (show ¬ (entries.filter (fun e => decide (e.1 = id)) ++ [e] = []) by simp)]
      congr 1
      unfold optionList
      rw [optionNames_append entries e id he]
      by_cases hf : entries.filter (fun e => decide (e.1 = id)) = []
      · rw [if_pos hf]
        have h2 : optionNames entries id = [] := by unfold optionNames; rw [hf]; rfl
        rw [h2]
        simp [lastValue_append entries e id _ he]
      · rw [if_neg hf]
        show setOption e.2.1 e.2.2 (optionList entries id) = _
        unfold optionList
        rw [setOption_flatMap _ _ _ _ (show (optionNames entries id).Nodup from nodup_eraseDups _ _ (le_refl _))]
        refine List.flatMap_congr fun o _ => ?_
        rw [lastValue_append entries e id o he]
    · rw [if_neg he]
      have h1 : ∀ p : Str × Str × Str → Bool, (∀ e, p e = true → e.1 = id) → [e].filter p = [] := by
        intro p hp
        rw [List.filter_cons, if_neg (fun h => he (hp e h))]
        rfl
      have h2 : optionList (entries ++ [e]) id = optionList entries id := by
        unfold optionList optionNames lastValue
        simp only [List.filter_append]
        rw [h1 _ (by simp)]
        have : ∀ o : Str, [e].filter (fun e => decide (e.1 = id ∧ e.2.1 = o)) = [] := fun o => h1 _ (by simp)
        simp only [this, List.append_nil]
      rw [h1 _ (by simp), List.append_nil, h2]

/-! ## Parameter files -/

theorem addAtom_eq (black : List Str) (neg : List (Str × Str)) (k : Str) (a : Atom) :
    addAtom black neg k a = if flagName k ∈ black ∨ a = .other then none else some (atomArgs neg k a) := by
  unfold addAtom
  by_cases h : flagName k ∈ black
  · simp [h]
  · rw [if_neg h]
    cases a with
    | bool b =>
      cases b with
      | true => simp [h, atomArgs]
      | false =>
        simp only [h, false_or, reduceCtorEq, if_false, atomArgs, find_lookup]
        cases neg.lookup (flagName k) <;> rfl
    | str s => simp [h, atomArgs]
    | num t => simp [h, atomArgs]
    | other => simp

theorem addAtoms_eq (black : List Str) (neg : List (Str × Str)) (k : Str) (hk : flagName k ∉ black) : ∀ l : List Atom,
    addAtoms black neg k l = if .other ∈ l then none else some (l.flatMap (atomArgs neg k))
  | [] => by simp [addAtoms]
  | a :: l => by
    rw [addAtoms, addAtom_eq, addAtoms_eq black neg k hk l]
    by_cases ha : a = .other
    · simp [ha]
    · by_cases hl : Atom.other ∈ l
      · simp [hk, ha, hl]
      · simp [hk, ha, hl, eq_comm (a := Atom.other)]

/-- The text of words, each after a blank. -/
theorem blanks : ∀ ws : List Str, ws ≠ [] → (ws.flatMap (fun w => ' ' :: w)).drop 1 = (ws.intersperse [' ']).flatten
  | [], h => absurd rfl h
  | [w], _ => by simp
  | w :: w' :: ws, _ => by
    have ih := blanks (w' :: ws) (by simp)
    rw [List.flatMap_cons, List.cons_append, List.drop_succ_cons, List.drop_zero, List.intersperse_cons_cons,
      List.flatten_cons, List.flatten_cons, ← ih]
    simp

theorem itemsText_atoms (addr : Nat → Str) : ∀ m : List (Str × Atom), (∀ e ∈ m, e.2 ≠ .other) →
    itemsText addr (m.map (fun e => .atom e.1 e.2)) = some ((m.flatMap (fun e => atomWords e.1 e.2)).flatMap (fun w => ' ' :: w))
  | [], _ => by simp [itemsText]
  | (k, a) :: m, h => by
    have ha := h (k, a) List.mem_cons_self
    rw [List.map_cons, itemsText, itemsText_atoms addr m (fun e he => h e (List.mem_cons_of_mem _ he)),
      List.flatMap_cons, List.flatMap_append]
    cases a with
    | bool b => cases b <;> simp [itemText, atomWords]
    | str s => simp [itemText, atomWords]
    | num t => simp [itemText, atomWords]
    | other => exact absurd rfl ha

/-! ## Expansion -/

/-- `out` and then the result. -/
def prepend (out : List (Str × Str)) : Res (List (Str × Str)) → Res (List (Str × Str))
  | .ok l => .ok (out ++ l)
  | .err => .err
  | .ub => .ub

theorem prepend_append (a b : List (Str × Str)) (r : Res (List (Str × Str))) : prepend (a ++ b) r = prepend a (prepend b r) := by
  cases r <;> simp [prepend]

theorem visit_plain {a : Str} (h1 : a ≠ pushFlag) (h2 : a ≠ popFlag) (rest : List Str) (d : Str) (ds : List Str) :
    visit (a :: rest) (d :: ds) = prepend [(d, a)] (visit rest (d :: ds)) := by
  cases rest with
  | nil => simp [visit, h1, h2, prepend]
  | cons b rest =>
    conv_lhs => unfold visit
    rw [if_neg h1, if_neg h2]
    cases visit (b :: rest) (d :: ds) <;> rfl

theorem visit_push (d' : Str) (rest ds : List Str) : visit (pushFlag :: d' :: rest) ds = visit rest (d' :: ds) := by
  conv_lhs => unfold visit
  rw [if_pos rfl]

theorem pop_ne_push : popFlag ≠ pushFlag := by decide

theorem visit_pop (x : Str) (rest ds : List Str) : visit (popFlag :: rest) (x :: ds) = visit rest ds := by
  cases rest with
  | nil => simp [visit, pop_ne_push]
  | cons b rest => 
    conv_lhs => unfold visit
    rw [if_neg pop_ne_push, if_pos rfl]

theorem isParamFile_ne {a : Str} (h : isParamFile a = true) :
    a ≠ fileFlag ∧ a ≠ fileNoPushFlag ∧ a ≠ pushFlag ∧ a ≠ popFlag ∧ a ≠ [] := by
  have e1 : isParamFile fileFlag = false := by decide
  have e2 : isParamFile fileNoPushFlag = false := by decide
  have e3 : isParamFile pushFlag = false := by decide
  have e4 : isParamFile popFlag = false := by decide
  have e5 : isParamFile [] = false := by decide
  refine ⟨?_, ?_, ?_, ?_, ?_⟩ <;> (rintro rfl; simp_all)

theorem expand_plain {F : Files} {a : Str} (h : Plain a) (n : Nat) (done rest dirs seen : List Str) :
    expand F (n + 1) done (a :: rest) dirs seen = expand F n (done ++ [a]) rest dirs seen := by
  obtain ⟨h1, h2, h3, h4, h5⟩ := h
  conv_lhs => unfold expand
  dsimp only
  rw [if_neg h1, if_neg h2, if_neg h3, if_neg h4, if_neg (by simp [h5])]

theorem expand_push {F : Files} (d : Str) (n : Nat) (done rest dirs seen : List Str) :
    expand F (n + 1) done (pushFlag :: d :: rest) dirs seen = expand F n (done ++ [pushFlag, d]) rest (d :: dirs) seen := by
  conv_lhs => unfold expand
  dsimp only
  rw [if_neg (by decide), if_neg (by decide), if_pos rfl]

theorem expand_pop {F : Files} (d : Str) (n : Nat) (done rest dirs seen : List Str) :
    expand F (n + 1) done (popFlag :: rest) (d :: dirs) seen = expand F n (done ++ [popFlag]) rest dirs seen := by
  conv_lhs => unfold expand
  dsimp only
  rw [if_neg (by decide), if_neg (by decide), if_neg (by decide), if_pos rfl]

theorem expand_file {F : Files} {f d : Str} {args seen : List Str} (hf : f ≠ []) (hs : F.path f d ∉ seen)
    (ha : F.args (F.path f d) = some args) (n : Nat) (done rest dirs : List Str) :
    expand F (n + 1) done (fileFlag :: f :: rest) (d :: dirs) seen =
      expand F n done (pushFlag :: F.dir (F.path f d) :: (args ++ popFlag :: rest)) (d :: dirs) (F.path f d :: seen) := by
  conv_lhs => unfold expand
  dsimp only
  rw [if_pos rfl]
  simp only [if_neg hf, if_neg hs, ha, inserted, if_true]
  simp

theorem expand_noPush {F : Files} {f d : Str} {args seen : List Str} (hf : f ≠ []) (hs : F.path f d ∉ seen)
    (ha : F.args (F.path f d) = some args) (n : Nat) (done rest dirs : List Str) :
    expand F (n + 1) done (fileNoPushFlag :: f :: rest) (d :: dirs) seen =
      expand F n done (args ++ rest) (d :: dirs) (F.path f d :: seen) := by
  conv_lhs => unfold expand
  dsimp only
  rw [if_neg (by decide), if_pos rfl]
  simp only [if_neg hf, if_neg hs, ha, inserted]
  simp

theorem expand_name {F : Files} {f d : Str} {args seen : List Str} (hf : isParamFile f = true) (hs : F.path f d ∉ seen)
    (ha : F.args (F.path f d) = some args) (n : Nat) (done rest dirs : List Str) :
    expand F (n + 1) done (f :: rest) (d :: dirs) seen =
      expand F n done (pushFlag :: F.dir (F.path f d) :: (args ++ popFlag :: rest)) (d :: dirs) (F.path f d :: seen) := by
  obtain ⟨h1, h2, h3, h4, h5⟩ := isParamFile_ne hf
  conv_lhs => unfold expand
  dsimp only
  rw [if_neg h1, if_neg h2, if_neg h3, if_neg h4, if_pos hf]
  simp only [if_neg h5, if_neg hs, ha, inserted, if_true]
  simp

theorem expand_ok {F : Files} {d : Str} {seen args : List Str} {out : List (Str × Str)} {seen' : List Str}
    (h : Expands F d seen args out seen') : ∃ (k : Nat) (argv : List Str),
    (∀ n done rest dirs, expand F (n + k) done (args ++ rest) (d :: dirs) seen = expand F n (done ++ argv) rest (d :: dirs) seen') ∧
    ∀ rest dirs, visit (argv ++ rest) (d :: dirs) = prepend out (visit rest (d :: dirs)) := by
  induction h with
  | nil d seen =>
    refine ⟨0, [], by simp, fun rest dirs => ?_⟩
    rw [List.nil_append]
    cases visit rest (d :: dirs) <;> rfl
  | @plain d seen a rest out seen' hp _ ih =>
    obtain ⟨k, argv, h1, h2⟩ := ih
    refine ⟨k + 1, a :: argv, fun n done rest' dirs => ?_, fun rest' dirs => ?_⟩
    · rw [← Nat.add_assoc, List.cons_append, expand_plain hp, h1]
      simp
    · rw [List.cons_append, visit_plain hp.2.2.1 hp.2.2.2.1, h2, ← prepend_append]
      rfl
  | @file d seen f rest args out1 seen1 out2 seen2 hf hs ha _ _ ih1 ih2 =>
    obtain ⟨k1, argv1, a1, b1⟩ := ih1
    obtain ⟨k2, argv2, a2, b2⟩ := ih2
    refine ⟨k2 + 1 + k1 + 1 + 1, pushFlag :: F.dir (F.path f d) :: (argv1 ++ popFlag :: argv2),
      fun n done rest' dirs => ?_, fun rest' dirs => ?_⟩
    · rw [show n + (k2 + 1 + k1 + 1 + 1) = ((n + k2 + 1) + k1 + 1) + 1 by omega, List.cons_append, List.cons_append,
        expand_file hf hs ha, expand_push, a1, expand_pop, a2]
      simp
    · rw [List.cons_append, List.cons_append, visit_push, List.append_assoc, b1, List.cons_append, visit_pop, b2, prepend_append]
  | @name d seen f rest args out1 seen1 out2 seen2 hf hs ha _ _ ih1 ih2 =>
    obtain ⟨k1, argv1, a1, b1⟩ := ih1
    obtain ⟨k2, argv2, a2, b2⟩ := ih2
    refine ⟨k2 + 1 + k1 + 1 + 1, pushFlag :: F.dir (F.path f d) :: (argv1 ++ popFlag :: argv2),
      fun n done rest' dirs => ?_, fun rest' dirs => ?_⟩
    · rw [show n + (k2 + 1 + k1 + 1 + 1) = ((n + k2 + 1) + k1 + 1) + 1 by omega, List.cons_append,
        expand_name hf hs ha, expand_push, a1, expand_pop, a2]
      simp
    · rw [List.cons_append, List.cons_append, visit_push, List.append_assoc, b1, List.cons_append, visit_pop, b2, prepend_append]
  | @noPush d seen f rest args out1 seen1 out2 seen2 hf hs ha _ _ ih1 ih2 =>
    obtain ⟨k1, argv1, a1, b1⟩ := ih1
    obtain ⟨k2, argv2, a2, b2⟩ := ih2
    refine ⟨k2 + k1 + 1, argv1 ++ argv2, fun n done rest' dirs => ?_, fun rest' dirs => ?_⟩
    · rw [show n + (k2 + k1 + 1) = ((n + k2) + k1) + 1 by omega, List.cons_append, List.cons_append,
        expand_noPush hf hs ha, a1, a2]
      simp
    · rw [List.append_assoc, b1, b2, prepend_append]

/-- What the files that were not used yet can add. -/
def weight (F : Files) (p : Str) : Nat := ((F.args p).getD []).length + 4

/-- The sum of the weights. -/
def weights (F : Files) (fs seen : List Str) : Nat := ((fs.filter (fun p => p ∉ seen)).map (weight F)).sum

theorem weights_cons (F : Files) (p : Str) (seen : List Str) : ∀ fs : List Str,
    weights F fs (p :: seen) ≤ weights F fs seen ∧ (p ∈ fs → p ∉ seen → weights F fs (p :: seen) + weight F p ≤ weights F fs seen)
  | [] => by simp [weights]
  | q :: fs => by
    have ih := weights_cons F p seen fs
    unfold weights at ih ⊢
    simp only [List.filter_cons, List.mem_cons, decide_not, not_or] at ih ⊢
    by_cases hs : q ∈ seen
    · simp only [hs]
      constructor
      · simpa using ih.1
      · rintro (rfl | hp) hn
        · exact absurd hs hn
        · simpa using ih.2 hp hn
    · by_cases hq : q = p
      · subst hq
        simp only [hs]
        constructor
        · simp at ih ⊢; omega
        · intro _ _
          have := ih.1
          simp at this ⊢
          omega
      · simp only [hs, hq]
        constructor
        · have := ih.1
          simp at this ⊢
          omega
        · rintro (rfl | hp) hn
          · exact absurd rfl hq
          · have := ih.2 hp hn
            simp at this ⊢
            omega

theorem expand_terminates (F : Files) (fs : List Str) (hfs : ∀ p, F.args p ≠ none → p ∈ fs) : ∀ (n : Nat) (done todo dirs seen : List Str),
    todo.length + weights F fs seen < n → expand F n done todo dirs seen ≠ .more
  | 0, _, _, _, _, h => by omega
  | n + 1, done, [], dirs, seen, _ => by simp [expand]
  | n + 1, done, a :: rest, dirs, seen, h => by
    have ih := expand_terminates F fs hfs n
    rw [List.length_cons] at h
    have file : ∀ (push : Bool) (f : Str) (keep rest' : List Str), rest'.length ≤ rest.length →
        (if f = [] then expand F n (done ++ keep) rest' dirs seen
          else
            match dirs with
            | [] => Out.ub
            | d :: _ =>
              if F.path f d ∈ seen then Out.err
              else
                match F.args (F.path f d) with
                | none => Out.err
                | some args => expand F n done (inserted F push (F.path f d) args ++ rest') dirs (F.path f d :: seen)) ≠ Out.more := by
      intro push f keep rest' hr
      by_cases hf : f = []
      · rw [if_pos hf]
        exact ih _ _ _ _ (by omega)
      · rw [if_neg hf]
        cases dirs with
        | nil => simp
        | cons d ds =>
          simp only
          by_cases hs : F.path f d ∈ seen
          · rw [if_pos hs]; simp
          · rw [if_neg hs]
            cases ha : F.args (F.path f d) with
            | none => simp
            | some args =>
              refine ih _ _ _ _ ?_
              have hw := (weights_cons F (F.path f d) seen fs).2 (hfs _ (by rw [ha]; simp)) hs
              unfold weight at hw
              rw [ha] at hw
              simp only [Option.getD_some] at hw
              have hi : (inserted F push (F.path f d) args).length ≤ args.length + 3 := by
                unfold inserted
                split_ifs <;> simp
              rw [List.length_append]
              omega
    unfold expand
    dsimp only
    split_ifs with h1 h2 h3 h4 h5
    · cases rest with
      | nil => simp
      | cons f rest' => exact file true f _ rest' (by simp)
    · cases rest with
      | nil => simp
      | cons f rest' => exact file false f _ rest' (by simp)
    · cases rest with
      | nil => simp
      | cons f rest' => exact ih _ _ _ _ (by simp at h ⊢; omega)
    · cases dirs with
      | nil => simp
      | cons d ds => exact ih _ _ _ _ (by omega)
    · exact ih _ _ _ _ (by omega)
    · have := file true a [a] rest (le_refl _)
      rw [if_neg (by assumption)] at this
      exact this
    · exact ih _ _ _ _ (by omega)

end Conf
end MZ
