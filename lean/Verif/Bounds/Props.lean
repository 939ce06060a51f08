import Verif.Bounds.Sound
/-!
# C11: computed bounds enclose every value

`Typed` is the well-formedness the type checker guarantees (operands are scalar, coefficient and
variable lists have the same length). `Regular` excludes what the code gets wrong: remainders,
divisions whose operand bounds touch zero, and calls of functions with declared result domain that
have Boolean arguments. For each exclusion a theorem shows that the claim is false without it.
-/
namespace MZ
namespace Bounds

def E.scalar : E → Bool
  | .array => false
  | _ => true

mutual
/-- What the type checker guarantees. -/
def E.Typed : E → Prop
  | .boolRhs e => e.Typed ∧ e.scalar
  | .varRhs e => e.Typed ∧ e.scalar
  | .accElem idx e => idx.Typed ∧ idx.scalars ∧ e.Typed ∧ e.scalar
  | .accDom _ idx _ => idx.Typed ∧ idx.scalars
  | .acc _ idx => idx.Typed ∧ idx.scalars
  | .bin _ a b => a.Typed ∧ a.scalar ∧ b.Typed ∧ b.scalar
  | .plus a => a.Typed ∧ a.scalar
  | .neg a => a.Typed ∧ a.scalar
  | .ite bs => bs.Typed
  | .lin cs xs _ => xs.Typed ∧ xs.scalars ∧ cs.length = xs.length
  | .sum xs => xs.Typed ∧ xs.scalars
  | .times a b => a.Typed ∧ a.scalar ∧ b.Typed ∧ b.scalar
  | .bool2int a => a.Typed ∧ a.scalar
  | .abs a => a.Typed ∧ a.scalar
  -- `uniform_on_restart` takes fixed arguments
  | .uniform _ a b => (∃ v, a = .parInt v) ∧ (∃ v, b = .parInt v)
  | .same a => a.Typed ∧ a.scalar
  | .call _ args _ => args.Typed
  | .unknown _ args => args.Typed
  | _ => True
def Es.Typed : Es → Prop
  | .nil => True
  | .cons e es => e.Typed ∧ es.Typed
def Bs.Typed : Bs → Prop
  | .els e => e.Typed ∧ e.scalar
  | .cons _ e bs => e.Typed ∧ e.scalar ∧ bs.Typed
def Es.scalars : Es → Prop
  | .nil => True
  | .cons e es => e.scalar ∧ es.scalars
end

/-- No Boolean among the arguments of a call. -/
def Es.noBool : Es → Prop
  | .nil => True
  | .cons e es => (e.isInt ∨ e = .array ∨ e = .parOther) ∧ es.noBool

mutual
/-- The cases the code handles correctly: see the header. -/
def E.Regular : E → Prop
  | .boolRhs e => e.Regular
  | .varRhs e => e.Regular
  | .accElem idx e => idx.Regular ∧ e.Regular
  | .accDom _ idx _ => idx.Regular
  | .acc _ idx => idx.Regular
  | .bin op a b => a.Regular ∧ b.Regular ∧ op ≠ .mod ∧
      (op = .idiv → ∃ b0 b1, computeIntBounds a = .ok (some b0) ∧ computeIntBounds b = .ok (some b1) ∧
        (b0.1 ≠ .fin 0 ∧ b0.2 ≠ .fin 0) ∧ (0 < b1.1.v ∨ b1.2.v < 0))
  | .plus a => a.Regular
  | .neg a => a.Regular
  | .ite bs => bs.Regular
  | .lin _ xs _ => xs.Regular
  | .sum xs => xs.Regular
  | .times a b => a.Regular ∧ b.Regular
  | .bool2int a => a.Regular
  | .abs a => a.Regular
  | .uniform _ a b => a.Regular ∧ b.Regular
  | .same a => a.Regular
  | .call _ args _ => args.Regular ∧ args.noBool
  | .unknown _ args => args.Regular
  | _ => True
def Es.Regular : Es → Prop
  | .nil => True
  | .cons e es => e.Regular ∧ es.Regular
def Bs.Regular : Bs → Prop
  | .els e => e.Regular
  | .cons _ e bs => e.Regular ∧ bs.Regular
end

/-! ### the flag only ever goes down, and visiting depends on the top of the stack only -/

theorem pop_eq {s s1 : St} {b : B} (h : pop s = .ok (b, s1)) : s = ⟨b :: s1.stack, s1.valid⟩ := by
  unfold pop at h
  obtain ⟨st, v⟩ := s
  cases st with
  | nil => simp at h
  | cons c r =>
    simp only [Res.ok.injEq, Prod.mk.injEq] at h
    obtain ⟨rfl, rfl⟩ := h
    rfl

theorem popN_eq (n : Nat) : ∀ {bs r : List B} {v : Bool} {s' : St}, bs.length = n →
    popN n ⟨bs ++ r, v⟩ = .ok s' → s' = ⟨r, v⟩ := by
  induction n with
  | zero =>
    intro bs r v s' hl h
    rw [List.length_eq_zero_iff] at hl
    subst hl
    simp only [popN, List.nil_append, Res.ok.injEq] at h
    exact h.symm
  | succ n ih =>
    intro bs r v s' hl h
    cases bs with
    | nil => simp at hl
    | cons b bs =>
      simp only [popN, List.cons_append, pop_cons, Res.ok_bind] at h
      exact ih (by simpa using hl) h

theorem pushDom_valid {D : List Range} {s s' : St} (h : pushDom D s = s') (hv : s'.valid = true) :
    s.valid = true ∧ D.isEmpty = false ∧ s' = ⟨hull D :: s.stack, true⟩ := by
  unfold pushDom at h
  cases hD : D.isEmpty with
  | true => rw [hD, if_pos rfl] at h; rw [← h] at hv; simp [giveUp] at hv
  | false =>
    rw [hD, if_neg (by simp)] at h
    rw [← h] at hv ⊢
    have : s.valid = true := hv
    exact ⟨this, rfl, by simp [push, this]⟩

theorem good_zero_one {S : Int → Prop} (h : ∀ v, S v → v = 0 ∨ v = 1) :
    Good (.fin 0, .fin 1) S := good_fin (fun v hv => by have := h v hv; omega)

theorem b2i_cases (b : Bool) : b2i b = 0 ∨ b2i b = 1 := by cases b <;> simp [b2i]

theorem good_bool (b : Bool) :
    Good (if b then (.fin 1, .fin 1) else (.fin 0, .fin 0)) (fun v => some (b2i b) = some v) := by
  cases b <;> simp only [Bool.false_eq_true, if_true, if_false] <;>
    refine good_fin (fun v hv => ?_) <;> simp [b2i] at hv <;> omega

/-- How many bounds the arguments of a call leave on the stack: one per integer argument. -/
inductive GoodA : Es → List B → Prop
  | nil : GoodA .nil []
  | int {e es b bs} : e.isInt = true → GoodA es bs → GoodA (.cons e es) (b :: bs)
  | array {es bs} : GoodA es bs → GoodA (.cons .array es) bs

theorem goodA_count {es : Es} {bs : List B} (h : GoodA es bs) : bs.length = es.intCount := by
  induction h with
  | nil => rfl
  | int he _ ih => simp only [List.length_cons, Es.intCount, he, if_true]; omega
  | array _ ih => simp only [Es.intCount, E.isInt]; simpa using ih

theorem goodL_length {σ : Asg} {es : Es} {bs : List B} (h : GoodL σ es bs) :
    bs.length = es.length := by
  induction h with
  | nil => rfl
  | cons _ _ ih => simp [Es.length, ih]

theorem compute_of_run {e : E} {s : St} {b : B} (h : run e ⟨[], true⟩ = .ok s) (hv : s.valid = true)
    (hs : s.stack = [b]) : computeIntBounds e = .ok (some b) := by
  unfold computeIntBounds
  rw [h]
  obtain ⟨st, v⟩ := s
  simp only at hv hs
  subst hv hs
  rfl

theorem popN_valid (n : Nat) {s s' : St} (h : popN n s = .ok s') (hv : s'.valid = true) :
    s.valid = true := by
  induction n generalizing s with
  | zero => simp only [popN, Res.ok.injEq] at h; rw [h]; exact hv
  | succ n ih =>
    simp only [popN, Res.bind_eq_ok] at h
    obtain ⟨⟨b, s1⟩, h1, h⟩ := h
    have := ih h
    rw [pop_eq h1]; exact this
theorem vBinOp_valid {op : Op} {s s' : St} (h : vBinOp op s = .ok s') (hv : s'.valid = true) :
    s.valid = true := by
  unfold vBinOp at h
  simp only [Res.bind_eq_ok] at h
  obtain ⟨⟨b1, s1⟩, h1, ⟨b0, s0⟩, h0, h⟩ := h
  dsimp only at h0 h
  rw [pop_eq h1, pop_eq h0]
  dsimp only
  split at h
  · injection h with h; rw [← h] at hv; simp [giveUp] at hv
  · rw [Res.bind_eq_ok] at h
    obtain ⟨r, _, h⟩ := h
    injection h with h
    rw [← h] at hv
    cases r with
    | none => simp [pushOpt, giveUp] at hv
    | some b => exact hv
theorem vTimes_valid {s s' : St} (h : vTimes s = .ok s') (hv : s'.valid = true) :
    s.valid = true := by
  unfold vTimes at h
  simp only [Res.bind_eq_ok] at h
  obtain ⟨⟨b1, s1⟩, h1, ⟨b0, s0⟩, h0, h⟩ := h
  dsimp only at h0 h
  rw [pop_eq h1, pop_eq h0]
  dsimp only
  split at h
  · injection h with h; rw [← h] at hv; simp [giveUp] at hv
  · rw [Res.bind_eq_ok] at h
    obtain ⟨r, _, h⟩ := h
    injection h with h
    rw [← h] at hv
    exact hv
theorem vAbs_valid {s s' : St} (h : vAbs s = .ok s') (hv : s'.valid = true) :
    s.valid = true := by
  unfold vAbs at h
  simp only [Res.bind_eq_ok] at h
  obtain ⟨⟨b1, s1⟩, h1, h⟩ := h
  dsimp only at h
  split at h
  · rw [pop_eq h1]
    split at h
    · simp only [Res.bind_eq_ok] at h
      obtain ⟨l, _, u, _, h⟩ := h
      injection h with h; rw [← h] at hv; exact hv
    · simp only [Res.bind_eq_ok] at h
      obtain ⟨l, _, h⟩ := h
      injection h with h; rw [← h] at hv; exact hv
  · injection h with h; rw [h]; exact hv

mutual
theorem run_valid : ∀ (e : E) (s s' : St), run e s = .ok s' → s'.valid = true → s.valid = true
  | .parInt _, s, s', h, hv => by
    simp only [run, Res.ok.injEq] at h; rw [← h] at hv; exact hv
  | .parBool _, s, s', h, hv => by
    simp only [run, Res.ok.injEq] at h; rw [← h] at hv; exact hv
  | .parOther, s, s', h, hv => by
    simp only [run, Res.ok.injEq] at h; rw [← h] at hv; simp at hv
  | .array, s, s', h, hv => by simp only [run, Res.ok.injEq] at h; rw [← h] at hv; exact hv
  | .boolExpr _, s, s', h, hv => by
    simp only [run, Res.ok.injEq] at h; rw [← h] at hv; exact hv
  | .boolDom _, s, s', h, hv => by
    simp only [run, Res.ok.injEq] at h; rw [← h] at hv; exact hv
  | .boolRhs e, s, s', h, hv => by simp only [run] at h; exact run_valid e s s' h hv
  | .boolVar _, s, s', h, hv => by
    simp only [run, Res.ok.injEq] at h; rw [← h] at hv; exact hv
  | .varDom _ _, s, s', h, hv => by
    simp only [run, Res.ok.injEq] at h; exact (pushDom_valid h hv).1
  | .varRhs e, s, s', h, hv => by simp only [run] at h; exact run_valid e s s' h hv
  | .var _, s, s', h, hv => by
    simp only [run, Res.ok.injEq] at h; rw [← h] at hv; exact hv
  | .accElem idx e, s, s', h, hv => by
    simp only [run, Res.bind_eq_ok] at h
    obtain ⟨s1, h1, s2, h2, h⟩ := h
    exact runRev_valid idx _ _ h1 (popN_valid _ h2 (run_valid e _ _ h hv))
  | .accDom _ idx _, s, s', h, hv => by
    simp only [run, Res.bind_eq_ok, Res.ok.injEq] at h
    obtain ⟨s1, h1, s2, h2, h⟩ := h
    exact runRev_valid idx _ _ h1 (popN_valid _ h2 (pushDom_valid h hv).1)
  | .acc _ idx, s, s', h, hv => by
    simp only [run, Res.bind_eq_ok, Res.ok.injEq] at h
    obtain ⟨s1, h1, s2, h2, h⟩ := h
    rw [← h] at hv; simp [giveUp] at hv
  | .bin _ a b, s, s', h, hv => by
    simp only [run, Res.bind_eq_ok] at h
    obtain ⟨s1, h1, s2, h2, h⟩ := h
    exact run_valid a _ _ h1 (run_valid b _ _ h2 (vBinOp_valid h hv))
  | .plus a, s, s', h, hv => by simp only [run] at h; exact run_valid a s s' h hv
  | .neg a, s, s', h, hv => by
    simp only [run, Res.bind_eq_ok] at h
    obtain ⟨s1, h1, h⟩ := h
    refine run_valid a _ _ h1 ?_
    unfold vNeg at h
    simp only [Res.bind_eq_ok] at h
    obtain ⟨⟨b, s2⟩, h2, l, _, u, _, h⟩ := h
    injection h with h
    rw [← h] at hv
    rw [pop_eq h2]; exact hv
  | .ite bs, s, s', h, hv => by simp only [run] at h; exact runIte_valid bs _ s s' h hv
  | .lin cs xs _, s, s', h, hv => by
    simp only [run, Res.bind_eq_ok] at h
    obtain ⟨s1, h1, h⟩ := h
    refine runRev_valid xs _ _ h1 ?_
    cases hx : s1.valid with
    | true => rfl
    | false =>
      rw [hx] at h; simp only [Bool.not_false, if_true] at h
      injection h with h; rw [← h] at hv; simp [giveUp] at hv
  | .sum xs, s, s', h, hv => by
    simp only [run, Res.bind_eq_ok] at h
    obtain ⟨s1, h1, h⟩ := h
    refine runRev_valid xs _ _ h1 ?_
    cases hx : s1.valid with
    | true => rfl
    | false =>
      rw [hx] at h; simp only [Bool.not_false, if_true] at h
      injection h with h; rw [← h] at hv; simp [giveUp] at hv
  | .card _ none, s, s', h, hv => by
    simp only [run, Res.ok.injEq] at h; rw [← h] at hv; simp [giveUp] at hv
  | .card _ (some _), s, s', h, hv => by
    simp only [run, Res.ok.injEq] at h; rw [← h] at hv; exact hv
  | .times a b, s, s', h, hv => by
    simp only [run, Res.bind_eq_ok] at h
    obtain ⟨s1, h1, s2, h2, h⟩ := h
    exact run_valid b _ _ h1 (run_valid a _ _ h2 (vTimes_valid h hv))
  | .bool2int a, s, s', h, hv => by
    simp only [run, Res.bind_eq_ok] at h
    obtain ⟨s1, h1, h⟩ := h
    refine run_valid a _ _ h1 ?_
    unfold vBool2Int at h
    simp only [Res.bind_eq_ok] at h
    obtain ⟨⟨b, s2⟩, h2, h⟩ := h
    injection h with h
    rw [← h] at hv
    rw [pop_eq h2]; exact hv
  | .abs a, s, s', h, hv => by
    simp only [run, Res.bind_eq_ok] at h
    obtain ⟨s1, h1, h⟩ := h
    exact run_valid a _ _ h1 (vAbs_valid h hv)
  | .uniform _ a b, s, s', h, hv => by
    simp only [run, Res.bind_eq_ok] at h
    obtain ⟨s1, h1, s2, h2, h⟩ := h
    refine run_valid b _ _ h1 (run_valid a _ _ h2 ?_)
    unfold vUniform at h
    simp only [Res.bind_eq_ok] at h
    obtain ⟨⟨b, s3⟩, h3, ⟨b', s4⟩, h4, h⟩ := h
    dsimp only at h4 h
    injection h with h
    rw [← h] at hv
    rw [pop_eq h3, pop_eq h4]; exact hv
  | .same a, s, s', h, hv => by simp only [run] at h; exact run_valid a s s' h hv
  | .call _ args D, s, s', h, hv => by
    simp only [run, Res.bind_eq_ok, Res.ok.injEq] at h
    obtain ⟨s1, h1, s2, h2, h⟩ := h
    refine runRev_valid args _ _ h1 (popN_valid _ h2 ?_)
    rw [← h] at hv
    unfold pushResult at hv
    split at hv <;> exact hv
  | .unknown _ args, s, s', h, hv => by
    simp only [run, Res.bind_eq_ok, Res.ok.injEq] at h
    obtain ⟨s1, h1, h⟩ := h
    rw [← h] at hv; simp [giveUp] at hv
termination_by structural e => e
theorem runRev_valid : ∀ (es : Es) (s s' : St), runRev es s = .ok s' → s'.valid = true →
    s.valid = true
  | .nil, s, s', h, hv => by simp only [runRev, Res.ok.injEq] at h; rw [h]; exact hv
  | .cons e es, s, s', h, hv => by
    simp only [runRev, Res.bind_eq_ok] at h
    obtain ⟨s1, h1, h⟩ := h
    exact runRev_valid es _ _ h1 (run_valid e _ _ h hv)
termination_by structural es => es
theorem runIte_valid : ∀ (bs : Bs) (acc : B) (s s' : St), runIte bs acc s = .ok s' →
    s'.valid = true → s.valid = true
  | .els e, acc, s, s', h, hv => by
    simp only [runIte, Res.bind_eq_ok] at h
    obtain ⟨s1, h1, ⟨b, s2⟩, h2, h⟩ := h
    injection h with h
    refine run_valid e _ _ h1 ?_
    rw [← h] at hv; rw [pop_eq h2]; exact hv
  | .cons (.par true) e _, acc, s, s', h, hv => by
    simp only [runIte, Res.bind_eq_ok] at h
    obtain ⟨s1, h1, ⟨b, s2⟩, h2, h⟩ := h
    injection h with h
    refine run_valid e _ _ h1 ?_
    rw [← h] at hv; rw [pop_eq h2]; exact hv
  | .cons (.par false) _ bs, acc, s, s', h, hv => by
    simp only [runIte] at h; exact runIte_valid bs acc s s' h hv
  | .cons (.var _) e bs, acc, s, s', h, hv => by
    simp only [runIte, Res.bind_eq_ok] at h
    obtain ⟨s1, h1, ⟨b, s2⟩, h2, h⟩ := h
    refine run_valid e _ _ h1 ?_
    have := runIte_valid bs _ _ _ h hv
    rw [pop_eq h2]; exact this
termination_by structural bs => bs
end

theorem unique_bounds {e : E} {b b' : B} {s : List B} {s1 : St}
    (hc : computeIntBounds e = .ok (some b)) (h : run e ⟨s, true⟩ = .ok ⟨b' :: s, true⟩)
    (hs : ∀ s', run e ⟨[], true⟩ = .ok s' → s'.valid = true → ∃ c, s' = ⟨[c], true⟩) : b = b' := by
  unfold computeIntBounds at hc
  rw [Res.bind_eq_ok] at hc
  obtain ⟨s2, h2, hc⟩ := hc
  dsimp only at hc
  cases hv : s2.valid with
  | false => rw [hv] at hc; simp at hc
  | true =>
    rw [hv, if_pos rfl] at hc
    obtain ⟨c, rfl⟩ := hs s2 h2 hv
    simp only [pop_cons, Res.ok_bind, Res.ok.injEq, Option.some.injEq] at hc
    have := run_app s e _ _ h2
    simp only [St.app, List.nil_append, List.cons_append] at this
    rw [h] at this
    simp only [Res.ok.injEq, St.mk.injEq, List.cons.injEq, and_true] at this
    rw [← hc, this]

theorem st_eta {s : St} (h : s.valid = true) : s = ⟨s.stack, true⟩ := by
  obtain ⟨a, b⟩ := s; simp only at h; rw [h]

mutual
theorem run_sound (σ : Asg) : ∀ (e : E) (s : List B) (s' : St), e.Typed → e.Regular →
    e.Respects σ → e.scalar = true → run e ⟨s, true⟩ = .ok s' → s'.valid = true →
    ∃ b, s' = ⟨b :: s, true⟩ ∧ Good b (fun v => e.eval σ = some v)
  | .parInt a, s, s', _, _, _, _, h, _ => by
    simp only [run, Res.ok.injEq] at h
    refine ⟨_, h.symm, good_fin (fun v hv => ?_)⟩
    simp only [E.eval, Option.some.injEq] at hv; omega
  | .parBool b, s, s', _, _, _, _, h, _ => by
    simp only [run, Res.ok.injEq] at h
    exact ⟨_, h.symm, good_mono (good_bool b) (fun v hv => by simpa only [E.eval] using hv)⟩
  | .parOther, s, s', _, _, _, _, h, hv => by
    simp only [run, Res.ok.injEq] at h; rw [← h] at hv; simp at hv
  | .array, s, s', _, _, _, hs, _, _ => by simp [E.scalar] at hs
  | .boolExpr k, s, s', _, _, _, _, h, _ => by
    simp only [run, Res.ok.injEq] at h
    refine ⟨_, h.symm, good_zero_one (fun v hv => ?_)⟩
    simp only [E.eval, Option.some.injEq] at hv
    rw [← hv]; exact b2i_cases _
  | .boolDom b, s, s', _, _, _, _, h, _ => by
    simp only [run, Res.ok.injEq] at h
    exact ⟨_, h.symm, good_mono (good_bool b) (fun v hv => by simpa only [E.eval] using hv)⟩
  | .boolRhs e, s, s', ht, hr, hp, _, h, hv => by
    simp only [run] at h; simp only [E.Typed, E.Regular, E.Respects] at ht hr hp
    obtain ⟨b, h1, h2⟩ := run_sound σ e s s' ht.1 hr hp ht.2 h hv
    exact ⟨b, h1, by simpa only [E.eval] using h2⟩
  | .boolVar k, s, s', _, _, _, _, h, _ => by
    simp only [run, Res.ok.injEq] at h
    refine ⟨_, h.symm, good_zero_one (fun v hv => ?_)⟩
    simp only [E.eval, Option.some.injEq] at hv
    rw [← hv]; exact b2i_cases _
  | .varDom k D, s, s', _, _, hp, _, h, hv => by
    simp only [run, Res.ok.injEq] at h
    simp only [E.Respects] at hp
    obtain ⟨_, h2, h3⟩ := pushDom_valid h hv
    refine ⟨_, h3, good_hull hp.1 h2 (fun v hv => ?_)⟩
    simp only [E.eval, Option.some.injEq] at hv
    rw [← hv]; exact hp.2
  | .varRhs e, s, s', ht, hr, hp, _, h, hv => by
    simp only [run] at h; simp only [E.Typed, E.Regular, E.Respects] at ht hr hp
    obtain ⟨b, h1, h2⟩ := run_sound σ e s s' ht.1 hr hp ht.2 h hv
    exact ⟨b, h1, by simpa only [E.eval] using h2⟩
  | .var k, s, s', _, _, _, _, h, _ => by
    simp only [run, Res.ok.injEq] at h
    exact ⟨_, h.symm, .negInf, .posInf, rfl, rfl, by simp, by simp, fun v _ => by simp⟩
  | .accElem idx e, s, s', ht, hr, hp, _, h, hv => by
    simp only [run, Res.bind_eq_ok] at h
    simp only [E.Typed, E.Regular, E.Respects] at ht hr hp
    obtain ⟨s1, h1, s2, h2, h⟩ := h
    have v2 := run_valid e _ _ h hv
    have v1 := popN_valid _ h2 v2
    obtain ⟨bs, e1, g1⟩ := runRev_sound σ idx s s1 ht.1 hr.1 hp.1 ht.2.1 h1 v1
    rw [e1] at h2
    have e2 := popN_eq _ (goodL_length g1) h2
    rw [e2] at h
    obtain ⟨b, h3, h4⟩ := run_sound σ e s s' ht.2.2.1 hr.2 hp.2 ht.2.2.2 h hv
    exact ⟨b, h3, by simpa only [E.eval] using h4⟩
  | .accDom k idx D, s, s', ht, hr, hp, _, h, hv => by
    simp only [run, Res.bind_eq_ok, Res.ok.injEq] at h
    simp only [E.Typed, E.Regular, E.Respects] at ht hr hp
    obtain ⟨s1, h1, s2, h2, h⟩ := h
    obtain ⟨v2, h4, h5⟩ := pushDom_valid h hv
    have v1 := popN_valid _ h2 v2
    obtain ⟨bs, e1, g1⟩ := runRev_sound σ idx s s1 ht.1 hr hp.1 ht.2 h1 v1
    rw [e1] at h2
    have e2 := popN_eq _ (goodL_length g1) h2
    rw [e2] at h5
    refine ⟨_, h5, good_hull hp.2.1 h4 (fun v hv => ?_)⟩
    simp only [E.eval, Option.some.injEq] at hv
    rw [← hv]; exact hp.2.2
  | .acc k idx, s, s', _, _, _, _, h, hv => by
    simp only [run, Res.bind_eq_ok, Res.ok.injEq] at h
    obtain ⟨s1, h1, s2, h2, h⟩ := h
    rw [← h] at hv; simp [giveUp] at hv
  | .bin op a b, s, s', ht, hr, hp, _, h, hv => by
    simp only [run, Res.bind_eq_ok] at h
    simp only [E.Typed, E.Regular, E.Respects] at ht hr hp
    obtain ⟨s1, h1, s2, h2, h⟩ := h
    have v2 := vBinOp_valid h hv
    have v1 := run_valid b _ _ h2 v2
    obtain ⟨b0, e0, g0⟩ := run_sound σ a s s1 ht.1 hr.1 hp.1 ht.2.1 h1 v1
    rw [e0] at h2 h1
    obtain ⟨b1, e1, g1⟩ := run_sound σ b _ s2 ht.2.2.1 hr.2.1 hp.2 ht.2.2.2 h2 v2
    rw [e1] at h h2
    obtain ⟨r, er, gr⟩ := vBinOp_sound h hv hr.2.2.1 (fun hop => by
      obtain ⟨c0, c1, k0, k1, hc⟩ := hr.2.2.2 hop
      have q0 := unique_bounds (s1 := s') k0 h1 (fun s'' hh hvv => by
        obtain ⟨c, hc, _⟩ := run_sound σ a [] s'' ht.1 hr.1 hp.1 ht.2.1 hh hvv
        exact ⟨c, hc⟩)
      have q1 := unique_bounds (s1 := s') k1 h2 (fun s'' hh hvv => by
        obtain ⟨c, hc, _⟩ := run_sound σ b [] s'' ht.2.2.1 hr.2.1 hp.2 ht.2.2.2 hh hvv
        exact ⟨c, hc⟩)
      rw [← q0, ← q1]; exact hc) g0 g1
    refine ⟨r, er, good_mono gr (fun v hv => ?_)⟩
    simp only [E.eval, Option.bind_eq_bind, Option.bind_eq_some_iff] at hv
    obtain ⟨x, hx, y, hy, hv⟩ := hv
    exact ⟨x, y, hx, hy, hv⟩
  | .plus a, s, s', ht, hr, hp, _, h, hv => by
    simp only [run] at h; simp only [E.Typed, E.Regular, E.Respects] at ht hr hp
    obtain ⟨b, h1, h2⟩ := run_sound σ a s s' ht.1 hr hp ht.2 h hv
    exact ⟨b, h1, by simpa only [E.eval] using h2⟩
  | .neg a, s, s', ht, hr, hp, _, h, hv => by
    have hv0 := h
    simp only [run, Res.bind_eq_ok] at h
    simp only [E.Typed, E.Regular, E.Respects] at ht hr hp
    obtain ⟨s1, h1, h⟩ := h
    have v1 : s1.valid = true := by
      unfold vNeg at h
      simp only [Res.bind_eq_ok] at h
      obtain ⟨⟨b, s2⟩, h2, l, _, u, _, h⟩ := h
      injection h with h
      rw [← h] at hv
      rw [pop_eq h2]; exact hv
    obtain ⟨b0, e0, g0⟩ := run_sound σ a s s1 ht.1 hr hp ht.2 h1 v1
    rw [e0] at h
    obtain ⟨r, er, gr⟩ := vNeg_sound h g0
    refine ⟨r, er, good_mono gr (fun v hv => ?_)⟩
    simp only [E.eval, Option.bind_eq_bind, Option.bind_eq_some_iff, Option.some.injEq] at hv
    obtain ⟨x, hx, hv⟩ := hv
    exact ⟨x, hx, hv.symm⟩
  | .ite bs, s, s', ht, hr, hp, _, h, hv => by
    simp only [run] at h
    simp only [E.Typed, E.Regular, E.Respects] at ht hr hp
    obtain ⟨b, h1, h2⟩ := runIte_sound σ bs _ (fun _ => False) s s'
      ⟨.posInf, .negInf, rfl, rfl, fun v hv => hv.elim⟩ ht hr hp h hv
    refine ⟨b, h1, good_mono h2 (fun v hv => Or.inr ?_)⟩
    simpa only [E.eval] using hv
  | .lin cs xs d, s, s', ht, hr, hp, _, h, hv => by
    simp only [run, Res.bind_eq_ok] at h
    simp only [E.Typed, E.Regular, E.Respects] at ht hr hp
    obtain ⟨s1, h1, h⟩ := h
    cases hx : s1.valid with
    | false =>
      rw [hx] at h; simp only [Bool.not_false, if_true] at h
      injection h with h; rw [← h] at hv; simp [giveUp] at hv
    | true =>
      rw [hx] at h; simp only [Bool.not_true, Bool.false_eq_true, if_false, Res.bind_eq_ok] at h
      obtain ⟨bs, e1, g1⟩ := runRev_sound σ xs s s1 ht.1 hr hp ht.2.1 h1 hx
      obtain ⟨⟨b, s2⟩, h2, h⟩ := h
      rw [e1] at h2
      obtain ⟨es, gs⟩ := linLoop_sound σ g1 cs s (.fin d) (.fin d) (.fin d) (.fin d) b s2 ht.2.2
        rfl rfl (by simp) (by simp) h2
      injection h with h
      refine ⟨b, by rw [← h, es]; rfl, good_mono gs (fun v hv => ?_)⟩
      simp only [E.eval, Option.bind_eq_bind, Option.bind_eq_some_iff, Option.some.injEq] at hv
      obtain ⟨t, h3, hv⟩ := hv
      exact ⟨d, t, le_refl _, le_refl _, h3, by omega⟩
  | .sum xs, s, s', ht, hr, hp, _, h, hv => by
    simp only [run, Res.bind_eq_ok] at h
    simp only [E.Typed, E.Regular, E.Respects] at ht hr hp
    obtain ⟨s1, h1, h⟩ := h
    cases hx : s1.valid with
    | false =>
      rw [hx] at h; simp only [Bool.not_false, if_true] at h
      injection h with h; rw [← h] at hv; simp [giveUp] at hv
    | true =>
      rw [hx] at h; simp only [Bool.not_true, Bool.false_eq_true, if_false, Res.bind_eq_ok] at h
      obtain ⟨bs, e1, g1⟩ := runRev_sound σ xs s s1 ht.1 hr hp ht.2 h1 hx
      obtain ⟨⟨b, s2⟩, h2, h⟩ := h
      rw [e1] at h2
      obtain ⟨es, gs⟩ := linLoop_sound σ g1 _ s (.fin 0) (.fin 0) (.fin 0) (.fin 0) b s2
        (by simp) rfl rfl (by simp) (by simp) h2
      injection h with h
      refine ⟨b, by rw [← h, es]; rfl, good_mono gs (fun v hv => ?_)⟩
      simp only [E.eval] at hv
      exact ⟨0, v, le_refl _, le_refl _, hv, by omega⟩
  | .card _ none, s, s', _, _, _, _, h, hv => by
    simp only [run, Res.ok.injEq] at h; rw [← h] at hv; simp [giveUp] at hv
  | .card k (some D), s, s', _, _, hp, _, h, _ => by
    simp only [run, Res.ok.injEq] at h
    simp only [E.Respects] at hp
    obtain ⟨hfin, hinf, hneg⟩ := C07_cardinality D hp.1
    refine ⟨_, h.symm, .fin 0, Ranges.cardinality D, rfl, denote_ofExt _, by simp, hneg,
      fun v hv => ?_⟩
    simp only [E.eval, Option.some.injEq] at hv
    refine ⟨by rw [Ext.fin_le_fin]; omega, ?_⟩
    cases hc : Ranges.cardinality D with
    | negInf => exact absurd hc hneg
    | posInf => simp
    | fin n =>
      obtain ⟨f1, f2⟩ := hfin n hc
      rw [Ext.fin_le_fin, ← hv, ← f2]
      have : ((σ.set k : Set Int)).ncard ≤ {x | Mem x D}.ncard :=
        Set.ncard_le_ncard (fun x hx => hp.2 x hx) f1
      rw [Set.ncard_coe_finset] at this
      exact_mod_cast this
  | .times a b, s, s', ht, hr, hp, _, h, hv => by
    simp only [run, Res.bind_eq_ok] at h
    simp only [E.Typed, E.Regular, E.Respects] at ht hr hp
    obtain ⟨s1, h1, s2, h2, h⟩ := h
    have v2 := vTimes_valid h hv
    have v1 := run_valid a _ _ h2 v2
    obtain ⟨b0, e0, g0⟩ := run_sound σ b s s1 ht.2.2.1 hr.2 hp.2 ht.2.2.2 h1 v1
    rw [e0] at h2
    obtain ⟨b1, e1, g1⟩ := run_sound σ a _ s2 ht.1 hr.1 hp.1 ht.2.1 h2 v2
    rw [e1] at h
    obtain ⟨r, er, gr⟩ := vTimes_sound h hv g0 g1
    refine ⟨r, er, good_mono gr (fun v hv => ?_)⟩
    simp only [E.eval, Option.bind_eq_bind, Option.bind_eq_some_iff, Option.some.injEq] at hv
    obtain ⟨x, hx, y, hy, hv⟩ := hv
    exact ⟨y, x, hy, hx, by rw [← hv]; exact mul_comm _ _⟩
  | .bool2int a, s, s', ht, hr, hp, _, h, hv => by
    simp only [run, Res.bind_eq_ok] at h
    simp only [E.Typed, E.Regular, E.Respects] at ht hr hp
    obtain ⟨s1, h1, h⟩ := h
    have v1 : s1.valid = true := by
      unfold vBool2Int at h
      simp only [Res.bind_eq_ok] at h
      obtain ⟨⟨b, s2⟩, h2, h⟩ := h
      injection h with h
      rw [← h] at hv
      rw [pop_eq h2]; exact hv
    obtain ⟨b0, e0, g0⟩ := run_sound σ a s s1 ht.1 hr hp.1 ht.2 h1 v1
    rw [e0] at h
    obtain ⟨r, er, gr⟩ := vBool2Int_sound h g0 hp.2
    exact ⟨r, er, by simpa only [E.eval] using gr⟩
  | .abs a, s, s', ht, hr, hp, _, h, hv => by
    simp only [run, Res.bind_eq_ok] at h
    simp only [E.Typed, E.Regular, E.Respects] at ht hr hp
    obtain ⟨s1, h1, h⟩ := h
    have v1 := vAbs_valid h hv
    obtain ⟨b0, e0, g0⟩ := run_sound σ a s s1 ht.1 hr hp ht.2 h1 v1
    rw [e0] at h
    obtain ⟨r, er, gr⟩ := vAbs_sound h g0
    refine ⟨r, er, good_mono gr (fun v hv => ?_)⟩
    simp only [E.eval, Option.bind_eq_bind, Option.bind_eq_some_iff, Option.some.injEq] at hv
    obtain ⟨x, hx, hv⟩ := hv
    exact ⟨x, hx, hv.symm⟩
  | .uniform k a b, s, s', ht, hr, hp, _, h, hv => by
    simp only [run, Res.bind_eq_ok] at h
    simp only [E.Typed, E.Regular, E.Respects] at ht hr hp
    obtain ⟨⟨x, rfl⟩, ⟨y, rfl⟩⟩ := ht
    obtain ⟨s1, h1, s2, h2, h⟩ := h
    simp only [run, Res.ok.injEq] at h1 h2
    rw [← h2, ← h1] at h
    unfold vUniform at h
    simp only [push, pop_cons, Res.ok_bind] at h
    injection h with h
    refine ⟨_, h.symm, good_fin (fun v hv => ?_)⟩
    simp only [E.eval, Option.some.injEq] at hv hp
    have := hp.2.2.1 x rfl
    have := hp.2.2.2 y rfl
    omega
  | .same a, s, s', ht, hr, hp, _, h, hv => by
    simp only [run] at h; simp only [E.Typed, E.Regular, E.Respects] at ht hr hp
    obtain ⟨b, h1, h2⟩ := run_sound σ a s s' ht.1 hr hp ht.2 h hv
    exact ⟨b, h1, by simpa only [E.eval] using h2⟩
  | .call k args D, s, s', ht, hr, hp, _, h, hv => by
    simp only [run, Res.bind_eq_ok, Res.ok.injEq] at h
    simp only [E.Typed, E.Regular, E.Respects] at ht hr hp
    obtain ⟨s1, h1, s2, h2, h⟩ := h
    have v2 : s2.valid = true := by
      rw [← h] at hv; unfold pushResult at hv; split at hv <;> exact hv
    have v1 := popN_valid _ h2 v2
    obtain ⟨bs, e1, g1⟩ := runRev_args σ args s s1 ht hr.1 hp.1 hr.2 h1 v1
    rw [e1] at h2
    have e2 := popN_eq _ (goodA_count g1) h2
    rw [e2] at h
    unfold pushResult at h
    cases hD : D.isEmpty with
    | true =>
      rw [hD, if_pos rfl] at h
      refine ⟨_, h.symm, good_fin (fun v _ => ?_)⟩
      rw [List.isEmpty_iff] at hD
      rw [hD] at hp
      exact absurd hp.2.2 (by simp [Mem])
    | false =>
      rw [hD, if_neg (by simp)] at h
      refine ⟨_, h.symm, good_hull hp.2.1 hD (fun v hv => ?_)⟩
      simp only [E.eval, Option.some.injEq] at hv
      rw [← hv]; exact hp.2.2
  | .unknown _ args, s, s', _, _, _, _, h, hv => by
    simp only [run, Res.bind_eq_ok, Res.ok.injEq] at h
    obtain ⟨s1, h1, h⟩ := h
    rw [← h] at hv; simp [giveUp] at hv
termination_by structural e => e
theorem runRev_sound (σ : Asg) : ∀ (es : Es) (s : List B) (s' : St), es.Typed → es.Regular →
    es.Respects σ → es.scalars → runRev es ⟨s, true⟩ = .ok s' → s'.valid = true →
    ∃ bs, s' = ⟨bs ++ s, true⟩ ∧ GoodL σ es bs
  | .nil, s, s', _, _, _, _, h, _ => by
    simp only [runRev, Res.ok.injEq] at h
    exact ⟨[], h.symm, .nil⟩
  | .cons e es, s, s', ht, hr, hp, hs, h, hv => by
    simp only [runRev, Res.bind_eq_ok] at h
    simp only [Es.Typed, Es.Regular, Es.Respects, Es.scalars] at ht hr hp hs
    obtain ⟨s1, h1, h⟩ := h
    have v1 := run_valid e _ _ h hv
    obtain ⟨bs, e1, g1⟩ := runRev_sound σ es s s1 ht.2 hr.2 hp.2 hs.2 h1 v1
    rw [e1] at h
    obtain ⟨b, e2, g2⟩ := run_sound σ e _ s' ht.1 hr.1 hp.1 hs.1 h hv
    exact ⟨b :: bs, e2, .cons g2 g1⟩
termination_by structural es => es
theorem runRev_args (σ : Asg) : ∀ (es : Es) (s : List B) (s' : St), es.Typed → es.Regular →
    es.Respects σ → es.noBool → runRev es ⟨s, true⟩ = .ok s' → s'.valid = true →
    ∃ bs, s' = ⟨bs ++ s, true⟩ ∧ GoodA es bs
  | .nil, s, s', _, _, _, _, h, _ => by
    simp only [runRev, Res.ok.injEq] at h
    exact ⟨[], h.symm, .nil⟩
  | .cons e es, s, s', ht, hr, hp, hs, h, hv => by
    simp only [runRev, Res.bind_eq_ok] at h
    simp only [Es.Typed, Es.Regular, Es.Respects, Es.noBool] at ht hr hp hs
    obtain ⟨s1, h1, h⟩ := h
    have v1 := run_valid e _ _ h hv
    obtain ⟨bs, e1, g1⟩ := runRev_args σ es s s1 ht.2 hr.2 hp.2 hs.2 h1 v1
    rw [e1] at h
    rcases hs.1 with hi | hi | hi
    · have hsc : e.scalar = true := by
        cases e <;> simp_all [E.scalar, E.isInt]
      obtain ⟨b, e2, g2⟩ := run_sound σ e _ s' ht.1 hr.1 hp.1 hsc h hv
      exact ⟨b :: bs, e2, .int hi g1⟩
    · subst hi
      simp only [run, Res.ok.injEq] at h
      exact ⟨bs, h.symm, .array g1⟩
    · subst hi
      simp only [run, Res.ok.injEq] at h
      rw [← h] at hv; simp at hv
termination_by structural es => es
theorem runIte_sound (σ : Asg) : ∀ (bs : Bs) (acc : B) (S : Int → Prop) (s : List B) (s' : St),
    (∃ l u, acc.1.denote = some l ∧ acc.2.denote = some u ∧ ∀ v, S v → l ≤ .fin v ∧ .fin v ≤ u) →
    bs.Typed → bs.Regular → bs.Respects σ → runIte bs acc ⟨s, true⟩ = .ok s' → s'.valid = true →
    ∃ b, s' = ⟨b :: s, true⟩ ∧ Good b (fun v => S v ∨ bs.eval σ = some v)
  | .els e, acc, S, s, s', ha, ht, hr, hp, h, hv => by
    simp only [runIte, Res.bind_eq_ok] at h
    simp only [Bs.Typed, Bs.Regular, Bs.Respects] at ht hr hp
    obtain ⟨s1, h1, ⟨b, s2⟩, h2, h⟩ := h
    injection h with h
    have v1 : s1.valid = true := by rw [← h] at hv; rw [pop_eq h2]; exact hv
    obtain ⟨b', e1, g1⟩ := run_sound σ e s s1 ht.1 hr hp ht.2 h1 v1
    rw [e1, pop_cons] at h2
    simp only [Res.ok.injEq, Prod.mk.injEq] at h2
    obtain ⟨rfl, rfl⟩ := h2
    refine ⟨_, h.symm, good_mono (join_good ha g1) (fun v hv => ?_)⟩
    simpa only [Bs.eval] using hv
  | .cons (.par true) e _, acc, S, s, s', ha, ht, hr, hp, h, hv => by
    simp only [runIte, Res.bind_eq_ok] at h
    simp only [Bs.Typed, Bs.Regular, Bs.Respects] at ht hr hp
    obtain ⟨s1, h1, ⟨b, s2⟩, h2, h⟩ := h
    injection h with h
    have v1 : s1.valid = true := by rw [← h] at hv; rw [pop_eq h2]; exact hv
    obtain ⟨b', e1, g1⟩ := run_sound σ e s s1 ht.1 hr.1 hp.1 ht.2.1 h1 v1
    rw [e1, pop_cons] at h2
    simp only [Res.ok.injEq, Prod.mk.injEq] at h2
    obtain ⟨rfl, rfl⟩ := h2
    refine ⟨_, h.symm, good_mono (join_good ha g1) (fun v hv => ?_)⟩
    simpa only [Bs.eval, Cond.eval, if_true] using hv
  | .cons (.par false) e bs, acc, S, s, s', ha, ht, hr, hp, h, hv => by
    simp only [runIte] at h
    simp only [Bs.Typed, Bs.Regular, Bs.Respects] at ht hr hp
    obtain ⟨b, e1, g1⟩ := runIte_sound σ bs acc S s s' ha ht.2.2 hr.2 hp.2 h hv
    refine ⟨b, e1, good_mono g1 (fun v hv => ?_)⟩
    simpa only [Bs.eval, Cond.eval, Bool.false_eq_true, if_false] using hv
  | .cons (.var k) e bs, acc, S, s, s', ha, ht, hr, hp, h, hv => by
    simp only [runIte, Res.bind_eq_ok] at h
    simp only [Bs.Typed, Bs.Regular, Bs.Respects] at ht hr hp
    obtain ⟨s1, h1, ⟨b, s2⟩, h2, h⟩ := h
    have v2 := runIte_valid bs _ _ _ h hv
    have v1 : s1.valid = true := by rw [pop_eq h2]; exact v2
    obtain ⟨b', e1, g1⟩ := run_sound σ e s s1 ht.1 hr.1 hp.1 ht.2.1 h1 v1
    rw [e1, pop_cons] at h2
    simp only [Res.ok.injEq, Prod.mk.injEq] at h2
    obtain ⟨rfl, rfl⟩ := h2
    obtain ⟨l, u, d1, d2, _, _, hs⟩ := join_good ha g1
    obtain ⟨r, er, gr⟩ := runIte_sound σ bs _ _ s s' ⟨l, u, d1, d2, hs⟩ ht.2.2 hr.2 hp.2 h hv
    refine ⟨r, er, good_mono gr (fun v hv => ?_)⟩
    rcases hv with hv | hv
    · exact Or.inl (Or.inl hv)
    · simp only [Bs.eval] at hv
      by_cases hk : (Cond.var k).eval σ = true
      · rw [if_pos hk] at hv; exact Or.inl (Or.inr hv)
      · rw [if_neg hk] at hv; exact Or.inr hv
termination_by structural bs => bs
end

/-- **C11 (partial).** Whenever `compute_int_bounds` returns valid bounds for a well-typed integer
expression, they enclose its value under every assignment that respects the domains. Missing from the
full property: remainders, divisions with operand bounds touching zero, and Boolean arguments of
functions with declared result domain (`Regular`), for which the claim is false — see below. -/
theorem _root_.MZ.C11_bounds_partial (e : E) (b : B) (ht : e.Typed) (hsc : e.scalar = true)
    (hr : e.Regular) (h : computeIntBounds e = .ok (some b)) (σ : Asg) (hσ : e.Respects σ) (v : Int)
    (hv : e.eval σ = some v) : Encloses b v := by
  unfold computeIntBounds at h
  rw [Res.bind_eq_ok] at h
  obtain ⟨s, h1, h⟩ := h
  cases hval : s.valid with
  | false => rw [hval] at h; simp at h
  | true =>
    rw [hval, if_pos rfl] at h
    obtain ⟨c, rfl, l, u, d1, d2, _, _, hs⟩ := run_sound σ e [] s ht hr hσ hsc h1 hval
    simp only [pop_cons, Res.ok_bind, Res.ok.injEq, Option.some.injEq] at h
    subst h
    exact ⟨l, u, d1, d2, hs v hv⟩

/-- `x` in `1..4`. -/
def exX : E := .varDom 0 [⟨.fin 1, .fin 4⟩]
/-- `y` in `-3..7`. -/
def exY : E := .varDom 1 [⟨.fin (-3), .fin (-1)⟩, ⟨.fin 2, .fin 7⟩]

/-- Non-vacuity: `abs(x*y - 2) + (if b then x else 9 div x endif)` has bounds, and the hypotheses hold. -/
example : computeIntBounds (.bin .plus (.abs (.bin .minus (.bin .mult exX exY) (.parInt 2)))
      (.ite (.cons (.var 0) exX (.els (.bin .idiv (.parInt 9) exX))))) =
      .ok (some (.fin 1, .fin 35)) ∧
    (E.bin .idiv (.parInt 9) exX).Regular ∧
    (E.bin .mult exX exY).Respects ⟨fun k => if k = 0 then 3 else 2, fun _ => true, fun _ => ∅⟩ := by
  refine ⟨by decide, ?_, ?_⟩
  · simp only [E.Regular, exX, true_and]
    exact ⟨by simp, fun _ => ⟨(.fin 9, .fin 9), (.fin 1, .fin 4), by decide, by decide, by decide,
      by decide⟩⟩
  · simp only [E.Respects, exX, exY]
    refine ⟨⟨⟨by decide, by decide⟩, ⟨.fin 1, .fin 4⟩, by simp, by simp [Range.Mem]⟩, ⟨by decide, by decide⟩,
      ⟨.fin 2, .fin 7⟩, by simp, by simp [Range.Mem]⟩

/-- Sums with an unbounded variable: `2*x - z + 1` is bounded on neither side, `sum([x,y])` is. -/
example : computeIntBounds (.lin [2, -1] (.cons exX (.cons (.var 2) .nil)) 1) =
      .ok (some (⟨-1, true⟩, ⟨1, true⟩)) ∧
    computeIntBounds (.sum (.cons exX (.cons exY .nil))) = .ok (some (.fin (-2), .fin 11)) := by
  decide

/-- **C11 is false for `mod`.** `x mod 5` with `x` in `3..5`: the computed bounds are `0..3`, but `x = 4`
gives 4. -/
theorem _root_.MZ.C11_mod_unsound :
    ∃ (e : E) (b : B) (σ : Asg) (v : Int), e.Typed ∧ e.Respects σ ∧
      computeIntBounds e = .ok (some b) ∧ e.eval σ = some v ∧ ¬ Encloses b v := by
  refine ⟨.bin .mod (.varDom 0 [⟨.fin 3, .fin 5⟩]) (.parInt 5), (.fin 0, .fin 3),
    ⟨fun _ => 4, fun _ => true, fun _ => ∅⟩, 4, ?_, ?_, by decide, by decide, ?_⟩
  · simp [E.Typed, E.scalar]
  · simp only [E.Respects, and_true]
    exact ⟨⟨by decide, by decide⟩, ⟨.fin 3, .fin 5⟩, by simp, by simp [Range.Mem]⟩
  · rintro ⟨l, u, h1, h2, _, h4⟩
    rw [← Option.some.inj h2] at h4
    simp [IntVal.fin] at h4

/-- **C11 is false for `div`.** `x div 1` with `x` in `0..3`: the lower bound 0 of the dividend is
replaced by 1, so the computed bounds are `1..3`, which misses 0. -/
theorem _root_.MZ.C11_div_unsound :
    ∃ (e : E) (b : B) (σ : Asg) (v : Int), e.Typed ∧ e.Respects σ ∧
      computeIntBounds e = .ok (some b) ∧ e.eval σ = some v ∧ ¬ Encloses b v := by
  refine ⟨.bin .idiv (.varDom 0 [⟨.fin 0, .fin 3⟩]) (.parInt 1), (.fin 1, .fin 3),
    ⟨fun _ => 0, fun _ => true, fun _ => ∅⟩, 0, ?_, ?_, by decide, by decide, ?_⟩
  · simp [E.Typed, E.scalar]
  · simp only [E.Respects, and_true]
    exact ⟨⟨by decide, by decide⟩, ⟨.fin 0, .fin 3⟩, by simp, by simp [Range.Mem]⟩
  · rintro ⟨l, u, h1, h2, h3, _⟩
    rw [← Option.some.inj h1] at h3
    simp [IntVal.fin] at h3

/-- **C11 is false for divisors ranging over zero.** `10 div y` with `y` in `-2..3`: the computed bounds
are `-5..3`, but `y = 1` gives 10. -/
theorem _root_.MZ.C11_div_zero_divisor_unsound :
    ∃ (e : E) (b : B) (σ : Asg) (v : Int), e.Typed ∧ e.Respects σ ∧
      computeIntBounds e = .ok (some b) ∧ e.eval σ = some v ∧ ¬ Encloses b v := by
  refine ⟨.bin .idiv (.parInt 10) (.varDom 0 [⟨.fin (-2), .fin 3⟩]), (.fin (-5), .fin 3),
    ⟨fun _ => 1, fun _ => true, fun _ => ∅⟩, 10, ?_, ?_, by decide, by decide, ?_⟩
  · simp [E.Typed, E.scalar]
  · simp only [E.Respects, true_and]
    exact ⟨⟨by decide, by decide⟩, ⟨.fin (-2), .fin 3⟩, by simp, by simp [Range.Mem]⟩
  · rintro ⟨l, u, h1, h2, _, h4⟩
    rw [← Option.some.inj h2] at h4
    simp [IntVal.fin] at h4

/-- **C11 is false for Boolean arguments.** `y + f(b)` with `y` in `10..20` and `f` declared with result
in `1..3`: the bounds of the Boolean argument stay on the stack and are added instead of those of `y`,
giving `1..4`, although the value is at least 11. -/
theorem _root_.MZ.C11_boolArg_unsound :
    ∃ (e : E) (b : B) (σ : Asg) (v : Int), e.Typed ∧ e.Respects σ ∧
      computeIntBounds e = .ok (some b) ∧ e.eval σ = some v ∧ ¬ Encloses b v := by
  refine ⟨.bin .plus (.varDom 0 [⟨.fin 10, .fin 20⟩])
      (.call 1 (.cons (.boolVar 0) .nil) [⟨.fin 1, .fin 3⟩]), (.fin 1, .fin 4),
    ⟨fun k => if k = 0 then 10 else 1, fun _ => true, fun _ => ∅⟩, 11, ?_, ?_, by decide, by decide, ?_⟩
  · simp [E.Typed, E.scalar, Es.Typed]
  · simp only [E.Respects, Es.Respects, and_true, true_and]
    exact ⟨⟨⟨by decide, by decide⟩, ⟨.fin 10, .fin 20⟩, by simp, by simp [Range.Mem]⟩, ⟨by decide, by decide⟩,
      ⟨.fin 1, .fin 3⟩, by simp, by simp [Range.Mem]⟩
  · rintro ⟨l, u, h1, h2, _, h4⟩
    rw [← Option.some.inj h2] at h4
    simp [IntVal.fin] at h4

end Bounds
end MZ
