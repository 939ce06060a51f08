import Verif.Solns.Model

/-!
# Reporting an unsatisfiable core in terms of the model (C56)

Model of `Solns2Out::resolveAssumptionCore`, `lib/solns2out.cpp:830-887`.
-/

namespace MZ
namespace Solns

/-- The characters of `find_first_not_of(" \t\r\n")`, `lib/solns2out.cpp:833-834`, `:857-858`. -/
def isBlank (c : Char) : Bool := decide (c = ' ') || decide (c = '\t') || decide (c = '\r') || decide (c = '\n')

/-- The text between the first and the last character that is not blank; empty if there is none,
`lib/solns2out.cpp:833-838`, `:857-860`. -/
def trim (t : Text) : Text := ((t.dropWhile isBlank).reverse.dropWhile isBlank).reverse

/-- `is_ident_start`, `lib/solns2out.cpp:842-844`. -/
def isIdentStart (c : Char) : Bool :=
  decide ('a' ≤ c ∧ c ≤ 'z') || decide ('A' ≤ c ∧ c ≤ 'Z') || decide (c = '_')

/-- `is_ident_char`, `lib/solns2out.cpp:845`. -/
def isIdentChar (c : Char) : Bool := isIdentStart c || decide ('0' ≤ c ∧ c ≤ '9')

/-- The brackets are removed, `lib/solns2out.cpp:839-841`. -/
def unbracket (t : Text) : Text :=
  if t.head? = some '[' ∧ t.getLast? = some ']' then (t.drop 1).take (t.length - 2) else t

/-- The pieces between commas, `lib/solns2out.cpp:851-856`, `:881-884`. -/
def splitCommas : Text → List Text
  | [] => [[]]
  | c :: cs =>
    if c = ',' then [] :: splitCommas cs
    else
      match splitCommas cs with
      | [] => [[c]]
      | l :: ls => (c :: l) :: ls

/-- Number of characters of the leading identifier, `lib/solns2out.cpp:862-868`. -/
def idEnd : Text → Nat
  | [] => 0
  | c :: cs => if isIdentStart c then 1 + (cs.takeWhile isIdentChar).length else 0

/-- One entry, `lib/solns2out.cpp:869-880`. -/
def resolveEntry (m : Text → Option Text) (token : Text) : Text :=
  let n := idEnd token
  match (if 0 < n then m (token.take n) else none) with
  | none => token
  | some x => if n = token.length then x else ['('] ++ x ++ [')'] ++ token.drop n

/-- `resolveAssumptionCore`, `lib/solns2out.cpp:830-887`. -/
def resolveCore (m : Text → Option Text) (payload : Text) : List Text :=
  let body := trim payload
  if body = [] then []
  else ((splitCommas (unbracket body)).map trim).filter (· ≠ []) |>.map (resolveEntry m)

/-! ## Specification -/

/-- An entry of the solver's list: not empty, no commas, no blanks at its ends. -/
def Entry (t : Text) : Prop :=
  t ≠ [] ∧ ',' ∉ t ∧ (∀ c, t.head? = some c → isBlank c = false) ∧ (∀ c, t.getLast? = some c → isBlank c = false)

/-- A name of a variable. -/
def Name (t : Text) : Prop := ∃ c cs, t = c :: cs ∧ isIdentStart c = true ∧ ∀ x ∈ cs, isIdentChar x = true

/-! ## Proofs -/

theorem dropWhile_blanks {w t : Text} (hw : ∀ c ∈ w, isBlank c = true) (ht : ∀ c, t.head? = some c → isBlank c = false) :
    (w ++ t).dropWhile isBlank = t := by
  induction w with
  | nil =>
    cases t with
    | nil => rfl
    | cons c t => rw [List.nil_append, List.dropWhile_cons, ht c rfl]; rfl
  | cons a w ih =>
    rw [List.cons_append, List.dropWhile_cons, if_pos (hw a (by simp)), ih (fun c hc => hw c (List.mem_cons_of_mem _ hc))]

theorem trim_blanks {w w' t : Text} (hw : ∀ c ∈ w, isBlank c = true) (hw' : ∀ c ∈ w', isBlank c = true)
    (ht : t ≠ []) (h1 : ∀ c, t.head? = some c → isBlank c = false) (h2 : ∀ c, t.getLast? = some c → isBlank c = false) :
    trim (w ++ t ++ w') = t := by
  have e1 : (w ++ t ++ w').dropWhile isBlank = t ++ w' := by
    rw [List.append_assoc]
    refine dropWhile_blanks hw ?_
    intro c hc
    cases t with
    | nil => exact absurd rfl ht
    | cons a t => exact h1 c hc
  rw [trim, e1, List.reverse_append, dropWhile_blanks (fun c hc => hw' c (List.mem_reverse.1 hc)), List.reverse_reverse]
  intro c hc
  rw [List.head?_reverse] at hc
  exact h2 c hc

theorem splitCommas_ne (t : Text) : splitCommas t ≠ [] := by
  cases t with
  | nil => simp [splitCommas]
  | cons c cs =>
    rw [splitCommas]
    split
    · simp
    · split <;> simp

theorem splitCommas_one {t : Text} (h : ',' ∉ t) : splitCommas t = [t] := by
  induction t with
  | nil => rfl
  | cons c cs ih =>
    rw [List.mem_cons, not_or] at h
    rw [splitCommas, if_neg (fun hh => h.1 hh.symm), ih h.2]

theorem splitCommas_cons {t : Text} (h : ',' ∉ t) (r : Text) : splitCommas (t ++ ',' :: r) = t :: splitCommas r := by
  induction t with
  | nil => simp [splitCommas]
  | cons c cs ih =>
    rw [List.mem_cons, not_or] at h
    rw [List.cons_append, splitCommas, if_neg (fun hh => h.1 hh.symm), ih h.2]

theorem splitCommas_join (f : List Text) (hne : f ≠ []) (h : ∀ t ∈ f, ',' ∉ t) :
    splitCommas ([','].intercalate f) = f := by
  induction f with
  | nil => exact absurd rfl hne
  | cons t f ih =>
    cases f with
    | nil =>
      have : ([','] : Text).intercalate [t] = t := by simp [List.intercalate]
      rw [this]
      exact splitCommas_one (h t (by simp))
    | cons u f =>
      have : ([','] : Text).intercalate (t :: u :: f) = t ++ ',' :: [','].intercalate (u :: f) := by
        simp [List.intercalate]
      rw [this, splitCommas_cons (h t (by simp)), ih (by simp) (fun x hx => h x (List.mem_cons_of_mem _ hx))]

end Solns

open Solns

/-- C56: a bracketed list of entries, with any blanks around them, is resolved entry by entry: no entry is lost
or added. -/
theorem C56_entries (m : Text → Option Text) (ts : List (Text × Text × Text)) (w w' : Text)
    (hw : ∀ c ∈ w ++ w', isBlank c = true) (hne : ts ≠ [])
    (h : ∀ p ∈ ts, (∀ c ∈ p.1 ++ p.2.2, isBlank c = true) ∧ Entry p.2.1) :
    resolveCore m (w ++ ("[".toList ++ [','].intercalate (ts.map (fun p => p.1 ++ p.2.1 ++ p.2.2)) ++ "]".toList) ++ w') =
      ts.map (fun p => resolveEntry m p.2.1) := by
  generalize hj : [','].intercalate (ts.map (fun p => p.1 ++ p.2.1 ++ p.2.2)) = j
  have hnc : ∀ c, isBlank c = true → c ≠ ',' := by rintro c hc rfl; exact absurd hc (by decide +kernel)
  have h1 : trim (w ++ ("[".toList ++ j ++ "]".toList) ++ w') = "[".toList ++ j ++ "]".toList := by
    refine trim_blanks (fun c hc => hw c (List.mem_append_left _ hc)) (fun c hc => hw c (List.mem_append_right _ hc)) ?_ ?_ ?_
    · simp
    · intro c hc
      have : c = '[' := by simpa using hc.symm
      subst this; decide +kernel
    · intro c hc
      rw [List.getLast?_append] at hc
      have : c = ']' := by simpa using hc.symm
      subst this; decide +kernel
  have h2 : unbracket ("[".toList ++ j ++ "]".toList) = j := by
    have e1 : "[".toList = ['['] := rfl
    have e2 : "]".toList = [']'] := rfl
    rw [unbracket, if_pos]
    · rw [e1, e2]
      simp
    · rw [List.getLast?_append, e1, e2]
      simp
  have h3 : splitCommas j = ts.map (fun p => p.1 ++ p.2.1 ++ p.2.2) := by
    rw [← hj]
    refine splitCommas_join _ (by simpa using hne) ?_
    intro t ht hc
    rw [List.mem_map] at ht
    obtain ⟨p, hp, rfl⟩ := ht
    have hp := h p hp
    rw [List.mem_append, List.mem_append] at hc
    rcases hc with (hc | hc) | hc
    · exact hnc _ (hp.1 _ (List.mem_append_left _ hc)) rfl
    · exact hp.2.2.1 hc
    · exact hnc _ (hp.1 _ (List.mem_append_right _ hc)) rfl
  have h4 : (ts.map (fun p => p.1 ++ p.2.1 ++ p.2.2)).map trim = ts.map (fun p => p.2.1) := by
    rw [List.map_map]
    apply List.map_congr_left
    intro p hp
    have hp := h p hp
    exact trim_blanks (fun c hc => hp.1 c (List.mem_append_left _ hc)) (fun c hc => hp.1 c (List.mem_append_right _ hc))
      hp.2.1 hp.2.2.2.1 hp.2.2.2.2
  unfold resolveCore
  simp only
  rw [h1, if_neg (by simp), h2, h3, h4, List.filter_eq_self.2, List.map_map]
  · rfl
  · intro t ht
    rw [List.mem_map] at ht
    obtain ⟨p, hp, rfl⟩ := ht
    simpa using (h p hp).2.1

theorem Solns.idEnd_name {t r : Text} (hn : Name t) (hr : ∀ c, r.head? = some c → isIdentChar c = false) :
    idEnd (t ++ r) = t.length := by
  obtain ⟨c, cs, rfl, h1, h2⟩ := hn
  have : ((cs ++ r).takeWhile isIdentChar) = cs := by
    induction cs with
    | nil =>
      cases r with
      | nil => rfl
      | cons a r => rw [List.nil_append, List.takeWhile_cons, hr a rfl]; rfl
    | cons a cs ih =>
      rw [List.cons_append, List.takeWhile_cons, if_pos (h2 a (by simp)), ih (fun x hx => h2 x (List.mem_cons_of_mem _ hx))]
  rw [List.cons_append, idEnd, if_pos h1, this, List.length_cons]
  omega

/-- C56: a known variable is replaced by its expression; in a comparison it is put in parentheses. -/
theorem C56_known (m : Text → Option Text) (n x r : Text) (hn : Name n) (hm : m n = some x)
    (hr : ∀ c, r.head? = some c → isIdentChar c = false) :
    resolveEntry m (n ++ r) = if r = [] then x else "(".toList ++ x ++ ")".toList ++ r := by
  have hl := idEnd_name hn hr
  have hpos : 0 < n.length := by obtain ⟨c, cs, rfl, -⟩ := hn; simp
  unfold resolveEntry
  simp only
  rw [hl, if_pos hpos, List.take_left, hm]
  simp only
  by_cases h : r = []
  · subst h; simp
  · rw [if_neg h, if_neg, List.drop_left]
    · rfl
    · rw [List.length_append]
      have := List.length_pos_iff.2 h
      omega

/-- C56: an entry whose leading name is not known, or that does not begin with a name, is kept as it is. -/
theorem C56_unknown (m : Text → Option Text) (t : Text)
    (h : ∀ n r, t = n ++ r → Name n → (∀ c, r.head? = some c → isIdentChar c = false) → m n = none) :
    resolveEntry m t = t := by
  unfold resolveEntry
  simp only
  cases t with
  | nil => rfl
  | cons c cs =>
    by_cases hc : isIdentStart c = true
    · have h1 : idEnd (c :: cs) = 1 + (cs.takeWhile isIdentChar).length := by rw [idEnd, if_pos hc]
      have h2 : (c :: cs).take (idEnd (c :: cs)) = c :: cs.takeWhile isIdentChar := by
        rw [h1, Nat.add_comm, List.take_succ_cons]
        congr 1
        have := List.takeWhile_append_dropWhile (p := isIdentChar) (l := cs)
        generalize cs.takeWhile isIdentChar = a at *
        rw [← this, List.take_left]
      rw [h2, h (c :: cs.takeWhile isIdentChar) (cs.dropWhile isIdentChar)]
      · simp
      · rw [List.cons_append, List.takeWhile_append_dropWhile]
      · refine ⟨c, _, rfl, hc, ?_⟩
        intro x hx
        have := List.all_takeWhile (p := isIdentChar) (l := cs)
        exact List.all_eq_true.1 this x hx
      · intro x hx
        have := List.head?_dropWhile_not isIdentChar cs
        rw [hx] at this
        simpa using this
    · rw [idEnd, if_neg hc]; rfl

example : resolveCore (fun n => if n = "b1".toList then some "x > 3".toList else if n = "obj".toList then some "cost".toList else none)
      " [b1, obj <= 5,y ]".toList = ["x > 3".toList, "(cost) <= 5".toList, "y".toList] := by decide +kernel

example : Name "b1".toList ∧ Entry "obj <= 5".toList :=
  ⟨⟨'b', ['1'], rfl, by decide +kernel, by decide +kernel⟩, by decide +kernel, by decide +kernel, fun c hc => by
    have : c = 'o' := by simpa using hc.symm
    subst this; decide +kernel, fun c hc => by
    have h : "obj <= 5".toList.getLast? = some '5' := by decide +kernel
    rw [h] at hc
    cases hc; decide +kernel⟩

end MZ
