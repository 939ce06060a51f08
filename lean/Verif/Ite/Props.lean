import Verif.Ite.Model
import Verif.Ranges.Props
import Mathlib.Data.List.Basic
/-!
# Flattening of conditional expressions preserves their meaning
-/
namespace MZ
namespace Ite

/-! ## Specification -/

/-- The values of variables, the values of other terms (if they are defined), and the truth of other
constraints, in one assignment. -/
structure Sem where
  var : Nat → Vl
  tm : Nat → Option Vl
  sat : Nat → Prop

/-- The value of a term. -/
def Sem.tval (S : Sem) : Tm → Option Vl
  | .id x => some (S.var x)
  | .absent => some .absent
  | .tm n => S.tm n

/-- Truth of a constraint: an equation with an undefined side is false (relational semantics). -/
def Sem.Holds (S : Sem) : Bx → Prop
  | .and l r => S.Holds l ∧ S.Holds r
  | .eq _ l r => ∃ v, S.tval l = some v ∧ S.tval r = some v
  | .other n => S.sat n

/-- The value of the arm of a conditional is that of the variable, resp. the constraint holds. -/
def Sem.ArmOk (S : Sem) : Option Nat → Arm → Prop
  | some x, .tm t => S.tval t = some (S.var x)
  | none, .conj bs => ∀ b ∈ bs, S.Holds b
  | _, _ => False

/-- The number of the branch that a conditional selects: the first whose condition is true; the
number of conditions for `else`. -/
def chosen (conds : List Cd) : Nat := (conds.map Cd.truth).findIdx id

/-! ## The predicates -/

theorem chain_unique {c : List Bool} {d : Nat → Bool} (h : chainOk c d) :
    ∀ i, i < c.length → (d i = true ↔ ∀ j, j < i → c[j]? = some false) := by
  intro i
  induction i with
  | zero => intro hi; have := h 0 hi; simp at this; simp [this]
  | succ i ih =>
    intro hi
    have := h (i + 1) hi
    simp only [Nat.zero_lt_succ, if_true, gt_iff_lt, Nat.add_sub_cancel] at this
    obtain ⟨b, hb, hd⟩ := this
    rw [hd]
    constructor
    · intro hh j hj
      simp only [Bool.and_eq_true, Bool.not_eq_true'] at hh
      rcases Nat.lt_succ_iff_lt_or_eq.1 hj with hj | rfl
      · exact (ih (by omega)).1 hh.2 j hj
      · rw [hb, hh.1]
    · intro hh
      have h1 := hh i (by omega)
      rw [hb] at h1
      simp only [Option.some.injEq] at h1
      subst h1
      simp only [Bool.not_false, Bool.true_and]
      exact (ih (by omega)).2 (fun j hj => hh j (by omega))

theorem chain_exists (c : List Bool) : ∃ d, chainOk c d := by
  refine ⟨fun i => (c.take i).all (fun b => !b), ?_⟩
  intro i hi
  cases i with
  | zero => simp
  | succ i =>
    simp only [Nat.zero_lt_succ, if_true, gt_iff_lt, Nat.add_sub_cancel]
    refine ⟨c[i]'(by omega), List.getElem?_eq_getElem (by omega), ?_⟩
    rw [List.take_succ_eq_append_getElem (by omega), List.all_append]
    simp [Bool.and_comm]

/-- **C67, the predicate `if_then_else`** of the standard library holds exactly if the result is
the value of the first branch whose condition is true, for any number of branches; and its
auxiliary variables have exactly one value. -/
theorem _root_.MZ.C67_predicate {V : Type} (c : List Bool) (x : List V) (y : V) (k : Nat)
    (hk : c[k]? = some true) (hf : ∀ j, j < k → c[j]? = some false) :
    (iteInt c x y ↔ x[k]? = some y) ∧
    (∀ d d', chainOk c d → chainOk c d' → ∀ i, i < c.length → d i = d' i) := by
  have hkl : k < c.length := by
    rcases Nat.lt_or_ge k c.length with h | h
    · exact h
    · rw [List.getElem?_eq_none h] at hk; cases hk
  refine ⟨⟨?_, ?_⟩, ?_⟩
  · rintro ⟨d, hd, h⟩
    exact h k hkl hk ((chain_unique hd k hkl).2 hf)
  · intro h
    obtain ⟨d, hd⟩ := chain_exists c
    refine ⟨d, hd, ?_⟩
    intro i hi hci hdi
    have := (chain_unique hd i hi).1 hdi
    rcases Nat.lt_trichotomy i k with hik | rfl | hik
    · rw [hf i hik] at hci; cases hci
    · exact h
    · rw [this k hik] at hk; cases hk
  · intro d d' hd hd' i hi
    rw [Bool.eq_iff_iff, chain_unique hd i hi, chain_unique hd' i hi]

/-- **C67, the predicate `if_then_else_partiality`** holds exactly if `b` says whether the first
branch whose condition is true is defined. -/
theorem _root_.MZ.C67_partiality (c df : List Bool) (b : Bool) (k : Nat) (hl : df.length = c.length)
    (hk : c[k]? = some true) (hf : ∀ j, j < k → c[j]? = some false) :
    itePartial c df b ↔ df[k]? = some b := by
  have hkl : k < c.length := by
    rcases Nat.lt_or_ge k c.length with h | h
    · exact h
    · rw [List.getElem?_eq_none h] at hk; cases hk
  have hdf : df[k]? = some (df[k]'(by omega)) := List.getElem?_eq_getElem (by omega)
  constructor
  · rintro ⟨d, hd, h1, h2⟩
    have hdk := (chain_unique hd k hkl).2 hf
    have h1 := fun hb => h1 k hkl hb hk hdk
    have h2 := h2 k hkl hdk hk
    rw [hdf] at h1 h2 ⊢
    cases b <;> cases hv : df[k] <;> simp_all
  · intro h
    obtain ⟨d, hd⟩ := chain_exists c
    have only : ∀ i, i < c.length → c[i]? = some true → d i = true → i = k := by
      intro i hi hci hdi
      have := (chain_unique hd i hi).1 hdi
      rcases Nat.lt_trichotomy i k with hik | rfl | hik
      · rw [hf i hik] at hci; cases hci
      · rfl
      · rw [this k hik] at hk; cases hk
    refine ⟨d, hd, ?_, ?_⟩
    · intro i hi hb hc hdi
      rw [only i hi hc hdi, h, hb]
    · intro i hi hdi hc hdf
      rw [only i hi hc hdi, h] at hdf
      simpa using hdf

/-- The conditions `x > 3`, `y > 3` and `true` in an assignment with `x = 1` and `y = 5`. -/
example : ∀ r : Int, iteInt [false, true, true] [10, 20, 30] r ↔ r = 20 := by
  intro r
  rw [(C67_predicate [false, true, true] [10, 20, 30] r 1 rfl (by
    intro j hj; obtain rfl : j = 0 := by omega
    rfl)).1]
  simp [eq_comm]

/-! ## The loop over the conditions -/

/-- The first column whose condition is true. -/
def sel (cs : List Col) : Option Col := cs.find? (fun c => c.cond.truth)

/-- The branches of the first condition that is true. -/
def pickC (arms : Nat → List FArm) : List Cd → Nat → Option (List FArm)
  | [], _ => none
  | c :: cs, i => if c.truth then some (arms i) else pickC arms cs (i + 1)

theorem sel_append (as bs : List Col) : sel (as ++ bs) = (sel as).or (sel bs) := List.find?_append

theorem loop_done {arms dummy : Nat → List FArm} : ∀ {conds : List Cd} {i : Nat} {ap : Bool}
    {acc cols : List Col} {ap' : Bool}, loop arms dummy conds i ap acc = .done cols ap' →
    ((sel cols).map Col.arms = ((sel acc).map Col.arms).or (pickC arms conds i)) ∧
    ((∀ c ∈ acc, c.cond.truth = true → c.counted = true) →
      ∀ c ∈ cols, c.cond.truth = true → c.counted = true) ∧
    (ap' = true → ∀ c ∈ conds, c.truth = false)
  | [], i, ap, acc, cols, ap', h => by
    simp only [loop, LoopRes.done.injEq] at h
    obtain ⟨rfl, rfl⟩ := h
    exact ⟨by simp [pickC], fun h => h, fun _ c hc => by cases hc⟩
  | .par true :: cs, i, ap, acc, cols, ap', h => by
    simp only [loop] at h
    split at h
    · cases h
    · rename_i hap
      simp only [LoopRes.done.injEq] at h
      obtain ⟨rfl, rfl⟩ := h
      refine ⟨?_, ?_, fun h => absurd h hap⟩
      · rw [sel_append]
        cases hs : sel acc <;> simp [sel, pickC, Cd.truth]
      · intro ha c hc ht
        rcases List.mem_append.1 hc with hc | hc
        · exact ha c hc ht
        · rw [List.mem_singleton] at hc; subst hc; rfl
  | .par false :: cs, i, ap, acc, cols, ap', h => by
    simp only [loop] at h
    obtain ⟨h1, h2, h3⟩ := loop_done h
    refine ⟨?_, ?_, ?_⟩
    · rw [h1, sel_append]
      cases hs : sel acc <;> simp [sel, pickC, Cd.truth]
    · intro ha
      refine h2 ?_
      intro c hc ht
      rcases List.mem_append.1 hc with hc | hc
      · exact ha c hc ht
      · rw [List.mem_singleton] at hc; subst hc; simp [Cd.truth] at ht
    · intro hap c hc
      rcases List.mem_cons.1 hc with rfl | hc
      · rfl
      · exact h3 hap c hc
  | .var b :: cs, i, ap, acc, cols, ap', h => by
    simp only [loop] at h
    obtain ⟨h1, h2, h3⟩ := loop_done h
    refine ⟨?_, ?_, ?_⟩
    · rw [h1, sel_append]
      cases hs : sel acc <;> cases b <;> simp [sel, pickC, Cd.truth]
    · intro ha
      refine h2 ?_
      intro c hc ht
      rcases List.mem_append.1 hc with hc | hc
      · exact ha c hc ht
      · rw [List.mem_singleton] at hc; subst hc; rfl
    · intro hap
      exact absurd hap (by
        have : ∀ {conds : List Cd} {i : Nat} {acc cols : List Col} {ap' : Bool},
            loop arms dummy conds i false acc = .done cols ap' → ap' = false := by
          intro conds
          induction conds with
          | nil => intro i acc cols ap' h; simp only [loop, LoopRes.done.injEq] at h; exact h.2.symm
          | cons c cs ih =>
            intro i acc cols ap' h
            rcases c with (_ | _) | _
            · simp only [loop] at h; exact ih h
            · simp only [loop, Bool.false_eq_true, if_false, LoopRes.done.injEq] at h
              exact h.2.symm
            · simp only [loop] at h; exact ih h
        rw [this h]; simp)

theorem loop_take {arms dummy : Nat → List FArm} : ∀ {conds : List Cd} {i : Nat} {ap : Bool}
    {acc : List Col} {k : Nat}, loop arms dummy conds i ap acc = .take k →
    chosen conds + i = k ∧ chosen conds < conds.length
  | [], i, ap, acc, k, h => by simp [loop] at h
  | .par true :: cs, i, ap, acc, k, h => by
    simp only [loop] at h
    split at h
    · simp only [LoopRes.take.injEq] at h
      subst h
      simp [chosen, Cd.truth, List.findIdx_cons]
    · cases h
  | .par false :: cs, i, ap, acc, k, h => by
    simp only [loop] at h
    obtain ⟨h1, h2⟩ := loop_take h
    simp only [chosen] at h1 h2 ⊢
    simp only [List.map_cons, Cd.truth, List.findIdx_cons, id, cond_false, List.length_cons]
    omega
  | .var b :: cs, i, ap, acc, k, h => by
    exfalso
    simp only [loop] at h
    have : ∀ {conds : List Cd} {i : Nat} {acc : List Col},
        loop arms dummy conds i false acc ≠ .take k := by
      intro conds
      induction conds with
      | nil => intro i acc h; simp [loop] at h
      | cons c cs ih =>
        intro i acc h
        rcases c with (_ | _) | _
        · simp only [loop] at h; exact ih h
        · simp [loop] at h
        · simp only [loop] at h; exact ih h
    exact this h

theorem pickC_eq (arms : Nat → List FArm) : ∀ (conds : List Cd) (i : Nat),
    pickC arms conds i = if chosen conds < conds.length then some (arms (chosen conds + i)) else none
  | [], i => by simp [pickC, chosen]
  | c :: cs, i => by
    have ih := pickC_eq arms cs (i + 1)
    unfold pickC
    by_cases hc : c.truth = true
    · simp [chosen, List.findIdx_cons, hc]
    · have hc' : c.truth = false := by simpa using hc
      have hch : chosen (c :: cs) = chosen cs + 1 := by
        simp [chosen, List.findIdx_cons, hc']
      rw [if_neg hc, ih, hch]
      simp only [List.length_cons, Nat.add_lt_add_iff_right]
      congr 2
      congr 1
      omega

/-- The branches that the conditional selects. -/
def chosenArms (conds : List Cd) (arms : Nat → List FArm) (els : List FArm) : List FArm :=
  if chosen conds < conds.length then arms (chosen conds) else els

theorem run_cols {conds : List Cd} {arms dummy : Nat → List FArm} {els : List FArm} {cs : List Col}
    (h : run conds arms dummy els = .cols cs) :
    ∃ c, sel cs = some c ∧ c.arms = chosenArms conds arms els ∧ c.counted = true := by
  unfold run at h
  split at h
  · cases h
  · rename_i cols ap hl
    obtain ⟨h1, h2, _⟩ := loop_done hl
    have h2 := h2 (fun c hc => by cases hc)
    have h1' : (sel cols).map Col.arms = pickC arms conds 0 := by simpa [sel] using h1
    have fin : ∀ cs', (∀ c ∈ cs', c.cond.truth = true → c.counted = true) →
        (sel cs').map Col.arms = some (chosenArms conds arms els) →
        ∃ c, sel cs' = some c ∧ c.arms = chosenArms conds arms els ∧ c.counted = true := by
      intro cs' hc' hs
      cases hsel : sel cs' with
      | none => rw [hsel] at hs; cases hs
      | some c =>
        rw [hsel] at hs
        simp only [Option.map_some, Option.some.injEq] at hs
        have ht := List.find?_some hsel
        exact ⟨c, rfl, hs, hc' c (List.mem_of_find?_eq_some hsel) ht⟩
    split at h
    · cases h
    · split at h
      · rename_i a b hlast
        simp only [Out.cols.injEq] at h
        subst h
        apply fin _ h2
        have hsome : sel cols ≠ none := by
          intro hn
          have := List.find?_eq_none.1 hn _ (List.mem_of_getLast? hlast)
          simp [Cd.truth] at this
        rw [h1']
        rw [pickC_eq] at h1' ⊢
        unfold chosenArms
        split
        · rfl
        · rename_i hh
          rw [if_neg hh] at h1'
          cases hs : sel cols with
          | none => exact absurd hs hsome
          | some c => rw [hs] at h1'; cases h1'
      · simp only [Out.cols.injEq] at h
        subst h
        apply fin
        · intro c hc ht
          rcases List.mem_append.1 hc with hc | hc
          · exact h2 c hc ht
          · rw [List.mem_singleton] at hc; subst hc; rfl
        · rw [sel_append, Option.map_or, h1', pickC_eq]
          unfold chosenArms
          split
          · rename_i hh; simp
          · simp [sel, Cd.truth]

/-! ## Bounds -/

theorem boundsList_mem {j : Nat} : ∀ {cs : List Col} {bs : List (Ext × Ext)},
    boundsList j cs = some bs → ∀ c ∈ cs, c.counted = true → ∀ a, c.arms[j]? = some a →
      a.isInt = true → ∃ b ∈ bs, a.bnds = some b
  | [], bs, _, c, hc => by cases hc
  | c0 :: cs, bs, h, c, hc => by
    intro hct a ha hi
    unfold boundsList at h
    split at h
    · cases h
    · rename_i bs0 h0
      rcases List.mem_cons.1 hc with rfl | hc
      · rw [ha] at h
        simp only [hct, hi, Bool.and_self, if_true] at h
        split at h
        · rename_i b hb
          simp only [Option.some.injEq] at h
          subst h
          exact ⟨b, List.mem_cons_self .., hb⟩
        · cases h
      · obtain ⟨b, hb, hab⟩ := boundsList_mem h0 c hc hct a ha hi
        refine ⟨b, ?_, hab⟩
        split at h
        · split at h
          · split at h
            · simp only [Option.some.injEq] at h; subst h; exact List.mem_cons_of_mem _ hb
            · cases h
          · simp only [Option.some.injEq] at h; subst h; exact hb
        · simp only [Option.some.injEq] at h; subst h; exact hb

theorem foldl_min_le (bs : List (Ext × Ext)) : ∀ a, bs.foldl (fun a b => min a b.1) a ≤ a ∧
    ∀ b ∈ bs, bs.foldl (fun a b => min a b.1) a ≤ b.1 := by
  induction bs with
  | nil => intro a; exact ⟨le_refl _, fun b hb => by cases hb⟩
  | cons c bs ih =>
    intro a
    simp only [List.foldl_cons]
    have h := ih (min a c.1)
    refine ⟨le_trans h.1 (min_le_left ..), ?_⟩
    intro b hb
    rcases List.mem_cons.1 hb with rfl | hb
    · exact le_trans h.1 (min_le_right ..)
    · exact h.2 b hb

theorem le_foldl_max (bs : List (Ext × Ext)) : ∀ a, a ≤ bs.foldl (fun a b => max a b.2) a ∧
    ∀ b ∈ bs, b.2 ≤ bs.foldl (fun a b => max a b.2) a := by
  induction bs with
  | nil => intro a; exact ⟨le_refl _, fun b hb => by cases hb⟩
  | cons c bs ih =>
    intro a
    simp only [List.foldl_cons]
    have h := ih (max a c.2)
    refine ⟨le_trans (le_max_left ..) h.1, ?_⟩
    intro b hb
    rcases List.mem_cons.1 hb with rfl | hb
    · exact le_trans (le_max_right ..) h.1
    · exact h.2 b hb

theorem postBounds_sound {j : Nat} {cs : List Col} {lb ub : Ext} (h : postBounds j cs = some (lb, ub))
    {c : Col} (hc : c ∈ cs) (hct : c.counted = true) {a : FArm} (ha : c.arms[j]? = some a)
    (hi : a.isInt = true) : ∃ l u, a.bnds = some (l, u) ∧ lb ≤ l ∧ u ≤ ub := by
  unfold postBounds at h
  split at h
  · cases h
  · rename_i bs hb
    simp only at h
    split at h
    · simp only [Option.some.injEq, Prod.mk.injEq] at h
      obtain ⟨rfl, rfl⟩ := h
      obtain ⟨b, hb1, hb2⟩ := boundsList_mem hb c hc hct a ha hi
      exact ⟨b.1, b.2, hb2, (foldl_min_le bs _).2 b hb1, (le_foldl_max bs _).2 b hb1⟩
    · cases h

theorem mem_ofBounds {lb ub : Ext} {k : Int} (h1 : lb ≤ .fin k) (h2 : .fin k ≤ ub) :
    Normal (IntSet.ofBounds lb ub) ∧ MZ.Mem k (IntSet.ofBounds lb ub) := by
  have h := C05_of_bounds lb ub (by rintro rfl; exact absurd h1 (by simp))
    (by rintro rfl; exact absurd h2 (by simp))
  exact ⟨h.1, (h.2 k).2 ⟨h1, h2⟩⟩

/-- Restricting the domain of a present variable keeps every value within the bounds. -/
theorem postDom_allows {dom : Option (List Range)} {hasE opt : Bool} {lb ub : Ext} {k : Int}
    (h1 : lb ≤ .fin k) (h2 : .fin k ≤ ub) (hd : ∀ d, dom = some d → Normal d ∧ MZ.Mem k d) :
    (postDom dom hasE lb ub).allows opt (.int k) := by
  have hb := mem_ofBounds h1 h2
  unfold postDom
  cases dom with
  | none =>
    obtain ⟨r, hr, hm⟩ := hb.2
    exact Or.inr ⟨k, rfl, r, hr, hm⟩
  | some d =>
    obtain ⟨hn, hm⟩ := hd d rfl
    have hi := C06_inter d _ hn hb.1
    have hmem := (hi.2 k).2 ⟨hm, hb.2⟩
    simp only
    generalize Ranges.inter d (IntSet.ofBounds lb ub) = n at hi hmem
    have allow : (DomAfter.dom n).allows opt (.int k) := by
      obtain ⟨r, hr, hm⟩ := hmem
      exact Or.inr ⟨k, rfl, r, hr, hm⟩
    split
    · rename_i he
      rw [List.isEmpty_iff] at he
      subst he
      obtain ⟨r, hr, _⟩ := hmem
      cases hr
    · split
      · obtain ⟨r, hr, hm⟩ := hm
        exact Or.inr ⟨k, rfl, r, hr, hm⟩
      · split
        · rename_i mn mx hmn hmx
          split
          · rename_i hc
            simp only [Bool.and_eq_true, beq_iff_eq] at hc
            obtain ⟨r, hr, hl, hu⟩ := hmem
            -- the first and the last range have the same end
            have : ∀ r ∈ n, r.lo = mn ∧ r.hi = mn := by
              cases n with
              | nil => cases hr
              | cons a n =>
                simp only [IntSet.min?, IntSet.max?, List.head?_cons, Option.map_some,
                  Option.some.injEq] at hmn hmx
                subst hmn
                have nn := hi.1
                cases n with
                | nil =>
                  simp only [List.getLast?_singleton, Option.map_some, Option.some.injEq] at hmx
                  intro r hr
                  rw [List.mem_singleton] at hr
                  subst hr
                  exact ⟨rfl, by rw [hmx, hc.2]⟩
                | cons b n =>
                  exfalso
                  rw [List.getLast?_eq_some_getLast (by simp)] at hmx
                  simp only [Option.map_some, Option.some.injEq] at hmx
                  have hlast : (a :: b :: n).getLast (by simp) ∈ b :: n := by
                    rw [List.getLast_cons (by simp)]; exact List.getLast_mem _
                  have p := (List.pairwise_cons.1 nn.2).1 _ hlast
                  have q := nn.1 _ (List.mem_cons_of_mem a hlast)
                  have qa := nn.1 a (List.mem_cons_self ..)
                  rw [← hc.2] at hmx
                  have h3 : a.hi.succ < a.lo := lt_of_lt_of_le p (hmx ▸ q.1)
                  have h4 : a.hi ≤ a.hi.succ := by
                    cases a.hi <;> simp [Ext.succ]
                  exact absurd (lt_of_le_of_lt (le_trans qa.1 h4) h3) (lt_irrefl _)
            obtain ⟨e1, e2⟩ := this r hr
            rw [e1] at hl
            rw [e2] at hu
            exact ⟨k, le_antisymm hl hu, rfl⟩
          · exact allow
        · exact allow

/-! ## Conditionals -/

/-- A flattened branch is consistent: a definedness that is `literalTrue` is true, and its value
lies within the bounds. -/
def FArm.Ok (a : FArm) : Prop :=
  (a.dTrue = true → a.d = true) ∧
  ∀ l u k, a.bnds = some (l, u) → a.isInt = true → a.r = .int k → l ≤ .fin k ∧ .fin k ≤ u

/-- The type of a branch fits the type of the result: for an integer variable it is an integer;
for an optional integer variable it may also be `<>`. -/
def FArm.Fits (a : FArm) (t : Target) : Prop :=
  t.isInt = true → (a.isInt = true ∧ ∃ k, a.r = .int k) ∨ (t.opt = true ∧ a.r = .absent)

/-- The value of a result variable is in its domain, and an optional variable is a new one without a
domain. -/
def Target.Ok (t : Target) : Prop :=
  (∀ d, t.dom = some d → Normal d ∧ t.opt = false ∧ ∀ k, t.v = .int k → MZ.Mem k d)

/-- All branches are consistent and fit the result variables. -/
def ArmsOk (ts : List Target) (as : List FArm) : Prop :=
  as.length = ts.length ∧ (∀ a ∈ as, a.Ok) ∧ ∀ (j : Nat) (a : FArm) (t : Target), as[j]? = some a → ts[j]? = some t → a.Fits t

theorem holds_iff {cs : List Col} {ts : List Target} {b : Bool} {c : Col} (hs : sel cs = some c)
    (hct : c.counted = true) (ok : ArmsOk ts c.arms)
    (hd : cs.all (fun c => c.arms.all (fun a => a.dTrue)) = true → colDef c = true)
    (ht : ∀ t ∈ ts, t.Ok) :
    holds cs ts b ↔
      (∀ (j : Nat) (t : Target), ts[j]? = some t → ∃ a : FArm, c.arms[j]? = some a ∧ t.v = a.r) ∧ b = c.arms.all (fun a => a.d) := by
  have hmem := List.mem_of_find?_eq_some hs
  obtain ⟨htr, as, bs, hcs, hfalse⟩ := List.find?_eq_some_iff_append.1 hs
  have hk : (cs.map fun c => c.cond.truth)[as.length]? = some true := by
    rw [hcs]; simp [htr]
  have hf : ∀ j, j < as.length → (cs.map fun c => c.cond.truth)[j]? = some false := by
    intro j hj
    rw [hcs, List.getElem?_map, List.getElem?_append_left hj, List.getElem?_eq_getElem hj]
    have := hfalse _ (List.getElem_mem hj)
    simpa using this
  have hp : ∀ j v, iteInt (cs.map fun c => c.cond.truth) (colVals j cs) v ↔
      (colVals j cs)[as.length]? = some v := fun j v =>
    (C67_predicate _ (colVals j cs) v as.length hk hf).1
  have hcol : ∀ j a, c.arms[j]? = some a → (colVals j cs)[as.length]? = some a.r := by
    intro j a ha
    unfold colVals
    rw [hcs]
    simp [ha]
  have arm : ∀ (j : Nat) (t : Target), ts[j]? = some t → ∃ a, c.arms[j]? = some a := by
    intro j t hj
    have : j < c.arms.length := by
      rw [ok.1]
      rcases Nat.lt_or_ge j ts.length with h | h
      · exact h
      · rw [List.getElem?_eq_none h] at hj; cases hj
    exact ⟨_, List.getElem?_eq_getElem this⟩
  have hpart : (if cs.all (fun c => c.arms.all (fun a => a.dTrue)) then b = true
      else itePartial (cs.map fun c => c.cond.truth) (cs.map colDef) b) ↔
      b = c.arms.all (fun a => a.d) := by
    split
    · rename_i h
      have := hd h
      unfold colDef at this
      rw [this]
    · rw [C67_partiality _ _ b as.length (by simp) hk hf]
      have : (cs.map colDef)[as.length]? = some (c.arms.all fun a => a.d) := by
        rw [hcs]; simp [colDef]
      rw [this]
      simp [eq_comm]
  unfold holds
  rw [hpart]
  refine and_congr_left fun _ => ?_
  constructor
  · intro h j t hj
    obtain ⟨a, ha⟩ := arm j t hj
    refine ⟨a, ha, ?_⟩
    have := (h j t hj).2
    rw [hp, hcol j a ha] at this
    exact (Option.some.inj this).symm
  · intro h j t hj
    obtain ⟨a, ha, hv⟩ := h j t hj
    refine ⟨?_, ?_⟩
    · intro hi lb ub hb
      have hfit := ok.2.2 j a t ha hj hi
      have hto := ht t (List.mem_of_getElem? hj)
      rcases hfit with ⟨hai, k, hk'⟩ | ⟨hopt, habs⟩
      · obtain ⟨l, u, hlu, h1, h2⟩ := postBounds_sound hb hmem hct ha hai
        have hin := (ok.2.1 a (List.mem_of_getElem? ha)).2 l u k hlu hai hk'
        rw [hv, hk']
        refine postDom_allows (le_trans h1 hin.1) (le_trans hin.2 h2) ?_
        intro d hdom
        exact ⟨(hto d hdom).1, (hto d hdom).2.2 k (hv.trans hk')⟩
      · rw [hv, habs]
        cases hdom : t.dom with
        | none => exact Or.inl ⟨hopt, rfl⟩
        | some d => rw [(hto d hdom).2.1] at hopt; cases hopt
    · rw [hp, hcol j a ha, hv]

/-- **C67, a flattened conditional is the conditional.** For any number of conditions, fixed or
variable, and of results: if `flatten_ite` flattens a single branch, it is the one that the
conditional selects; otherwise the constraints it generates hold for exactly those values of
the result variables and of the definedness variable that are the values and the definedness of the
selected branch. (What is missing: optional results that already have a domain, see
`C67_opt_fails`.) -/
theorem _root_.MZ.C67_ite_partial (conds : List Cd) (arms dummy : Nat → List FArm) (els : List FArm)
    (ts : List Target) (b : Bool) (ha : ∀ i, i < conds.length → ArmsOk ts (arms i)) (he : ArmsOk ts els)
    (ht : ∀ t ∈ ts, t.Ok) :
    match run conds arms dummy els with
    | .branch i => chosen conds = i ∧ i < conds.length
    | .els => chosen conds = conds.length
    | .cols cs => holds cs ts b ↔
      (∀ (j : Nat) (t : Target), ts[j]? = some t → ∃ a : FArm, (chosenArms conds arms els)[j]? = some a ∧ t.v = a.r) ∧
        b = (chosenArms conds arms els).all (fun a => a.d) := by
  cases hr : run conds arms dummy els with
  | branch i =>
    unfold run at hr
    split at hr
    · rename_i k hl
      simp only [Out.branch.injEq] at hr
      subst hr
      have := loop_take hl
      simp only
      omega
    · split at hr
      · cases hr
      · split at hr <;> cases hr
  | els =>
    unfold run at hr
    split at hr
    · cases hr
    · rename_i cols ap hl
      split at hr
      · rename_i hap
        obtain ⟨_, _, h3⟩ := loop_done hl
        have h3 := h3 hap
        simp only [chosen]
        rw [← List.length_map (f := Cd.truth)]
        rw [List.findIdx_eq_length]
        intro x hx
        obtain ⟨c, hc, rfl⟩ := List.mem_map.1 hx
        simpa using h3 c hc
      · split at hr <;> cases hr
  | cols cs =>
    obtain ⟨c, hs, hca, hct⟩ := run_cols hr
    have hok : ArmsOk ts c.arms := by
      rw [hca]; unfold chosenArms
      split
      · rename_i hlt; exact ha _ hlt
      · exact he
    simp only
    rw [← hca]
    refine holds_iff hs hct hok ?_ ht
    intro hall
    rw [List.all_eq_true] at hall
    have := hall c (List.mem_of_find?_eq_some hs)
    unfold colDef
    rw [List.all_eq_true] at this ⊢
    exact fun a ha => (hok.2.1 a ha).1 (this a ha)

end Ite
end MZ
