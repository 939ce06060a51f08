import Verif.Ite.Split
/-!
# Conditionals whose value is a tuple or record

`ite_struct_split` (lib/flatten/flatten_ite.cpp 80–137).
-/
namespace MZ
namespace Ite

/-- The fields of a tuple or record type: none, or a first field that is no tuple (`leaf`) or is one
(`st`), and the others. -/
inductive Fs where
  | nil
  | leaf (rest : Fs)
  | st (inner rest : Fs)
deriving DecidableEq, Repr

/-- The fields of a tuple value. -/
inductive Vs where
  | nil
  | leaf (v : Vl) (rest : Vs)
  | st (inner rest : Vs)
deriving DecidableEq, Repr

/-- The tuple that is returned (`tupleResult`): its fields are the results with these numbers. -/
inductive Tr where
  | nil
  | leaf (k : Nat) (rest : Tr)
  | st (inner rest : Tr)
deriving DecidableEq, Repr

/-- Specification: a value has a type. -/
def HasTy : Fs → Vs → Prop
  | .nil, .nil => True
  | .leaf fs, .leaf _ vs => HasTy fs vs
  | .st gs fs, .st ws vs => HasTy gs ws ∧ HasTy fs vs
  | _, _ => False

/-- The fields from number `i` on (from 0). -/
def dropF : Nat → Vs → Vs
  | 0, v => v
  | i + 1, .leaf _ vs => dropF i vs
  | i + 1, .st _ vs => dropF i vs
  | _ + 1, .nil => .nil

/-- The value of a field access to a field that is no tuple. -/
def fldLeaf (i : Nat) (v : Vs) : Vl :=
  match dropF i v with
  | .leaf x _ => x
  | _ => .absent

/-- The value of a field access to a field that is a tuple. -/
def fldSt (i : Nat) (v : Vs) : Vs :=
  match dropF i v with
  | .st ws _ => ws
  | _ => .nil

/-- A generated conditional: the values in the `then` branches and in the `else` branch
(`e_then[k]`, `e_else[k]`). -/
structure SRow where
  thens : List Vl
  els : Vl
deriving DecidableEq, Repr

/-- `then_decl[i]` for every `j` (line 106), which is read only if there is a `j`. -/
def nested (i : Nat) (ts : List Vs) : Res (List Vs) :=
  if ts.isEmpty then .ok []
  else
    match ts[i]? with
    | some t => .ok (ts.map fun _ => fldSt i t)
    | none => .ub

/-- 100–132: the loop over the fields, from field `i` on, for the `then` branches `ts` and the
`else` branch `e`; field accesses are represented by their values. -/
def splitSt : Fs → Nat → List Vs → Vs → List SRow → Res (Tr × List SRow)
  | .nil, _, _, _, rows => .ok (.nil, rows)
  | .leaf fs, i, ts, e, rows =>
    match splitSt fs (i + 1) ts e (rows ++ [⟨ts.map (fldLeaf i), fldLeaf i e⟩]) with
    | .ok (tr, rows') => .ok (.leaf rows.length tr, rows')
    | .err => .err
    | .ub => .ub
  | .st gs fs, i, ts, e, rows =>
    match nested i ts with
    | .err => .err
    | .ub => .ub
    | .ok ts' =>
      match splitSt gs 0 ts' (fldSt i e) rows with
      | .err => .err
      | .ub => .ub
      | .ok (tr1, rows1) =>
        match splitSt fs (i + 1) ts e rows1 with
        | .err => .err
        | .ub => .ub
        | .ok (tr2, rows2) => .ok (.st tr1 tr2, rows2)

/-- 80–137 `ite_struct_split`. -/
def structSplit (fs : Fs) (ts : List Vs) (e : Vs) : Res (Tr × List SRow) := splitSt fs 0 ts e []

/-- Specification: the value of the returned tuple, given the values of the results. -/
def Tr.val (f : Nat → Vl) : Tr → Vs
  | .nil => .nil
  | .leaf k tr => .leaf (f k) (tr.val f)
  | .st a b => .st (a.val f) (b.val f)

/-- The value of result `k` if branch `j` is selected. -/
def thenVal (rows : List SRow) (j k : Nat) : Vl := ((rows[k]?.bind fun r => r.thens[j]?)).getD .absent

/-- The value of result `k` if the `else` branch is selected. -/
def elseVal (rows : List SRow) (k : Nat) : Vl := ((rows[k]?.map fun r => r.els)).getD .absent

/-- Only the first field is a tuple, and only if there is a single `then` branch. -/
def Safe (n : Nat) : Nat → Fs → Prop
  | _, .nil => True
  | i, .leaf fs => Safe n (i + 1) fs
  | i, .st gs fs => n = 1 ∧ i = 0 ∧ Safe n 0 gs ∧ Safe n 1 fs

theorem dropF_succ : ∀ (i : Nat) (v : Vs), dropF (i + 1) v = dropF 1 (dropF i v)
  | 0, v => rfl
  | i + 1, .nil => by cases i <;> rfl
  | i + 1, .leaf x vs => by simp only [dropF]; exact dropF_succ i vs
  | i + 1, .st x vs => by simp only [dropF]; exact dropF_succ i vs

theorem splitSt_ok : ∀ (fs : Fs) (i : Nat) (ts : List Vs) (e : Vs) (rows : List SRow),
    (∀ t ∈ ts, HasTy fs (dropF i t)) → HasTy fs (dropF i e) → Safe ts.length i fs →
    ∃ tr rows', splitSt fs i ts e rows = .ok (tr, rows ++ rows') ∧
      (∀ more (j : Nat) (t : Vs), ts[j]? = some t →
        tr.val (thenVal (rows ++ rows' ++ more) j) = dropF i t) ∧
      (∀ more, tr.val (elseVal (rows ++ rows' ++ more)) = dropF i e)
  | .nil, i, ts, e, rows, ht, he, _ => by
    refine ⟨.nil, [], by simp [splitSt], ?_, ?_⟩
    · intro more j t hj
      have := ht t (List.mem_of_getElem? hj)
      cases hd : dropF i t <;> rw [hd] at this <;> simp_all [HasTy, Tr.val]
    · intro more
      cases hd : dropF i e <;> rw [hd] at he <;> simp_all [HasTy, Tr.val]
  | .leaf fs, i, ts, e, rows, ht, he, hs => by
    have dl : ∀ t, HasTy (.leaf fs) (dropF i t) → dropF i t = .leaf (fldLeaf i t) (dropF (i + 1) t) ∧
        HasTy fs (dropF (i + 1) t) := by
      intro t h
      unfold fldLeaf
      rw [dropF_succ]
      cases hd : dropF i t with
      | nil => rw [hd] at h; simp [HasTy] at h
      | st a b => rw [hd] at h; simp [HasTy] at h
      | leaf x vs => rw [hd] at h; exact ⟨by simp [dropF], by simpa [dropF, HasTy] using h⟩
    obtain ⟨tr, rows', h1, h2, h3⟩ := splitSt_ok fs (i + 1) ts e
      (rows ++ [⟨ts.map (fldLeaf i), fldLeaf i e⟩]) (fun t h => (dl t (ht t h)).2) (dl e he).2 hs
    refine ⟨.leaf rows.length tr, ⟨ts.map (fldLeaf i), fldLeaf i e⟩ :: rows', ?_, ?_, ?_⟩
    · simp [splitSt, h1]
    · intro more j t hj
      have := h2 more j t hj
      simp only [List.append_assoc, List.singleton_append] at this
      rw [(dl t (ht t (List.mem_of_getElem? hj))).1]
      simp only [Tr.val, List.append_assoc, List.cons_append, this]
      congr 1
      simp [thenVal, hj]
    · intro more
      have := h3 more
      simp only [List.append_assoc, List.singleton_append] at this
      rw [(dl e he).1]
      simp only [Tr.val, List.append_assoc, List.cons_append, this]
      congr 1
      simp [elseVal]
  | .st gs fs, i, ts, e, rows, ht, he, hs => by
    obtain ⟨hn, hi, hsg, hsf⟩ := hs
    subst hi
    have ds : ∀ t, HasTy (.st gs fs) (dropF 0 t) → dropF 0 t = .st (fldSt 0 t) (dropF 1 t) ∧
        HasTy gs (fldSt 0 t) ∧ HasTy fs (dropF 1 t) := by
      intro t h
      unfold fldSt
      cases t with
      | nil => simp [dropF, HasTy] at h
      | leaf a b => simp [dropF, HasTy] at h
      | st ws vs => exact ⟨by simp [dropF], by simpa [dropF, HasTy] using h⟩
    match ts, hn with
    | [t], _ =>
      have htt := ds t (ht t (List.mem_singleton_self _))
      obtain ⟨tr1, rows1, a1, a2, a3⟩ := splitSt_ok gs 0 [fldSt 0 t] (fldSt 0 e) rows
        (fun t' h' => by rw [List.mem_singleton] at h'; subst h'; exact htt.2.1) (ds e he).2.1 hsg
      obtain ⟨tr2, rows2, b1, b2, b3⟩ := splitSt_ok fs 1 [t] e (rows ++ rows1)
        (fun t' h' => by rw [List.mem_singleton] at h'; subst h'; exact htt.2.2) (ds e he).2.2 hsf
      have hnest : nested 0 [t] = .ok [fldSt 0 t] := rfl
      refine ⟨.st tr1 tr2, rows1 ++ rows2, ?_, ?_, ?_⟩
      · simp only [splitSt, hnest, a1, b1, Nat.zero_add]
        simp
      · intro more j t' hj
        cases j with
        | succ j => simp at hj
        | zero =>
          simp only [List.getElem?_cons_zero, Option.some.injEq] at hj
          subst hj
          rw [htt.1]
          have e1 := a2 (rows2 ++ more) 0 _ rfl
          have e2 := b2 more 0 _ rfl
          simp only [List.append_assoc] at e1 e2 ⊢
          simp only [Tr.val, e1, e2]
          rfl
      · intro more
        rw [(ds e he).1]
        have e1 := a3 (rows2 ++ more)
        have e2 := b3 more
        simp only [List.append_assoc] at e1 e2 ⊢
        simp only [Tr.val, e1, e2]
        rfl

/-- **C67, conditionals over tuples.** For a type whose fields are not tuples (and also if only the first field
is one and there is a single `then` branch) a conditional is split into conditionals for the fields,
such that the tuple of their results is, whichever branch is selected, the value of that branch.
(What is missing: other nested tuples, for which it does not hold: `C67_struct_fails`.) -/
theorem _root_.MZ.C67_struct_partial (fs : Fs) (ts : List Vs) (e : Vs) (ht : ∀ t ∈ ts, HasTy fs t)
    (he : HasTy fs e) (hs : Safe ts.length 0 fs) :
    ∃ tr rows, structSplit fs ts e = .ok (tr, rows) ∧
      (∀ (j : Nat) (t : Vs), ts[j]? = some t → tr.val (thenVal rows j) = t) ∧
      tr.val (elseVal rows) = e := by
  obtain ⟨tr, rows, h1, h2, h3⟩ := splitSt_ok fs 0 ts e [] ht he hs
  refine ⟨tr, rows, by simpa [structSplit] using h1, ?_, ?_⟩
  · intro j t hj; simpa [dropF] using h2 [] j t hj
  · simpa [dropF] using h3 []

/-- Two `then` branches with the fields `(int, int)`. -/
example : Safe 2 0 (.leaf (.leaf .nil)) ∧
    structSplit (.leaf (.leaf .nil)) [.leaf (.int 1) (.leaf (.int 2) .nil), .leaf (.int 3) (.leaf (.int 4) .nil)]
      (.leaf (.int 5) (.leaf (.int 6) .nil)) =
    .ok (.leaf 0 (.leaf 1 .nil), [⟨[.int 1, .int 3], .int 5⟩, ⟨[.int 2, .int 4], .int 6⟩]) :=
  ⟨trivial, rfl⟩

/-- **C67 fails for nested tuples.** The field of the branch with the number of the *field* is read
instead of the field of every branch. If the first nested tuple of a type is field number `i`
(counted from 0) and there are at most `i` `then` branches, a vector is read beyond its end. And
with two `then` branches whose first field is a tuple, the value of the second branch is replaced
by that of the first. -/
theorem _root_.MZ.C67_struct_fails :
    (∀ (gs fs : Fs) (pre : Nat) (ts : List Vs) (e : Vs), ts ≠ [] → ts.length ≤ pre →
      structSplit (Nat.repeat Fs.leaf pre (.st gs fs)) ts e = .ub) ∧
    ∃ tr rows, structSplit (.st (.leaf .nil) .nil)
      [.st (.leaf (.int 1) .nil) .nil, .st (.leaf (.int 2) .nil) .nil] (.st (.leaf (.int 3) .nil) .nil) =
        .ok (tr, rows) ∧ tr.val (thenVal rows 1) = .st (.leaf (.int 1) .nil) .nil := by
  refine ⟨?_, _, _, rfl, by decide +kernel⟩
  intro gs fs pre ts e hne hlen
  have gen : ∀ (m i : Nat) (rows : List SRow), ts.length ≤ i + m →
      splitSt (Nat.repeat Fs.leaf m (.st gs fs)) i ts e rows = .ub := by
    intro m
    induction m with
    | zero =>
      intro i rows hl
      simp only [Nat.repeat, splitSt, nested]
      rw [List.getElem?_eq_none (by omega)]
      have : ts.isEmpty = false := by simpa using hne
      simp [this]
    | succ m ih =>
      intro i rows hl
      simp only [Nat.repeat, splitSt]
      rw [ih (i + 1) _ (by omega)]
  exact gen pre 0 [] (by omega)

/-- `if c then (1, (2, 3)) else (4, (5, 6)) endif` -/
example : structSplit (.leaf (.st (.leaf (.leaf .nil)) .nil))
    [.leaf (.int 1) (.st (.leaf (.int 2) (.leaf (.int 3) .nil)) .nil)]
    (.leaf (.int 4) (.st (.leaf (.int 5) (.leaf (.int 6) .nil)) .nil)) = .ub := rfl

/-! ## Optional variables with a domain -/

/-- **C67 fails for optional variables with a domain.** `var opt 1..10: x; constraint if c then
x = <> else x = 50 endif`: if `c` is true and `x` is absent, the constraint holds, but the flattening does not,
since the bounds `50..50` of the branches that are no `<>` are posted for `x`, and no value of the domain is left. With
`x = 5` in place of `x = 50`, `x` is fixed to 5. -/
theorem _root_.MZ.C67_opt_fails (n : Int) (hn : n = 50 ∨ n = 5) :
    let c := Cd.var true
    let thn := FArm.mk .absent true true false none
    let els := FArm.mk (.int n) true true true (some (.fin n, .fin n))
    let x := Target.mk .absent true true (some [⟨.fin 1, .fin 10⟩]) false
    ∃ cs, run [c] (fun _ => [thn]) (fun _ => []) [els] = .cols cs ∧
      chosenArms [c] (fun _ => [thn]) [els] = [thn] ∧ x.v = thn.r ∧ ¬ holds cs [x] true := by
  refine ⟨_, rfl, rfl, rfl, ?_⟩
  rintro ⟨h, -⟩
  have h := (h 0 _ rfl).1 rfl (.fin n) (.fin n) (by rcases hn with rfl | rfl <;> decide +kernel)
  rcases hn with rfl | rfl
  · have e : postDom (some [⟨.fin 1, .fin 10⟩]) false (.fin 50) (.fin 50) = .fail := by
      unfold postDom
      have : Ranges.inter [⟨.fin 1, .fin 10⟩] (IntSet.ofBounds (.fin 50) (.fin 50)) = [] := by decide +kernel
      simp [this]
    simp only [e] at h
    exact h
  · have e : postDom (some [⟨.fin 1, .fin 10⟩]) false (.fin 5) (.fin 5) = .fixed (.fin 5) := by
      unfold postDom
      have : Ranges.inter [⟨.fin 1, .fin 10⟩] (IntSet.ofBounds (.fin 5) (.fin 5)) = [⟨.fin 5, .fin 5⟩] := by
        decide +kernel
      have h2 : Ranges.equal [⟨.fin 1, .fin 10⟩] [⟨.fin 5, .fin 5⟩] = false := by decide +kernel
      simp [this, h2, IntSet.min?, IntSet.max?]
    simp only [e] at h
    obtain ⟨k, _, h⟩ := h
    cases h

end Ite
end MZ
