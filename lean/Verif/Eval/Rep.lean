import Verif.Eval.Model
import Verif.Eval.Spec
import Verif.IntVal.Props
import Verif.Ranges.Props
/-!
# The evaluation of parameter expressions: representation of values and agreement of results
-/
namespace MZ
namespace Eval

/-- The machine value `v` stands for the mathematical value `d`: integers are equal and fit into
64 bits, a set is a normal sequence of ranges with the elements of `d`. -/
def Rep : (b : Base) → Val b → DVal b → Prop
  | .int, v, d => v = d ∧ inLL d
  | .bool, v, d => v = d
  | .set, v, d => Normal v ∧ (∀ x, Mem x v ↔ x ∈ d) ∧ ∀ x ∈ d, inLL x

/-- The result of an evaluation agrees with a meaning: a value stands for the meaning, "undefined"
is reported only for undefined expressions. -/
def Agree {α δ : Type} (r : α → δ → Prop) (o : Out α) (d : Option δ) : Prop :=
  match o with
  | .val a => ∃ x, d = some x ∧ r a x
  | .undef => d = none
  | .err => True
  | .ub => True

/-- Environments with the same identifiers bound to corresponding values. -/
structure EnvRep (env : Env) (denv : DEnv) : Prop where
  s : ∀ b n v, env.s b n = some v → ∃ d, denv.s b n = some d ∧ Rep b v d
  a : ∀ b n lo vs, env.a b n = some (lo, vs) →
    inLL lo ∧ ∃ ds, denv.a b n = some (lo, ds) ∧ List.Forall₂ (Rep b) vs ds
  s' : ∀ b n, env.s b n = none → denv.s b n = none
  a' : ∀ b n, env.a b n = none → denv.a b n = none

inductive AnyRep : AnyVal → AnyD → Prop
  | mk {b : Base} {v : Val b} {d : DVal b} (h : Rep b v d) : AnyRep ⟨b, v⟩ ⟨b, d⟩

/-- The evaluation of calls agrees with the interpretation of the functions. -/
def KRep (K : (b : Base) → Nat → List AnyVal → Out (Val b))
    (R : (b : Base) → Nat → List AnyD → Option (DVal b)) : Prop :=
  ∀ b f vs ds, List.Forall₂ AnyRep vs ds → Agree (Rep b) (K b f vs) (R b f ds)

theorem Agree.val {α δ : Type} {r : α → δ → Prop} {a : α} {x : δ} (h : r a x) :
    Agree r (.val a) (some x) := ⟨x, rfl, h⟩

theorem Agree.err {α δ : Type} {r : α → δ → Prop} {d : Option δ} : Agree r .err d := trivial

theorem Agree.bind {α δ α' δ' : Type} {r : α → δ → Prop} {r' : α' → δ' → Prop} {o : Out α}
    {d : Option δ} {f : α → Out α'} {g : δ → Option δ'} (h : Agree r o d)
    (hf : ∀ a x, r a x → Agree r' (f a) (g x)) : Agree r' (o >>= f) (d >>= g) := by
  cases o with
  | val a => obtain ⟨x, rfl, hx⟩ := h; exact hf a x hx
  | undef => have h : d = none := h; subst h; exact rfl
  | err => trivial
  | ub => trivial

theorem Agree.mono {α δ : Type} {r r' : α → δ → Prop} {o : Out α} {d : Option δ} (h : Agree r o d)
    (hr : ∀ a x, r a x → r' a x) : Agree r' o d := by
  cases o with
  | val a => obtain ⟨x, e, hx⟩ := h; exact ⟨x, e, hr _ _ hx⟩
  | undef => exact h
  | err => trivial
  | ub => trivial

theorem Agree.catchU {o : Out Bool} {d : Option Bool} (h : Agree (Rep .bool) o d) :
    Agree (Rep .bool) (Out.catchU o) (truth d) := by
  cases o with
  | val a => obtain ⟨x, rfl, hx⟩ := h; exact ⟨x, rfl, hx⟩
  | undef => have h : d = none := h; subst h; exact ⟨false, rfl, rfl⟩
  | err => trivial
  | ub => trivial

theorem Agree.guard {b : Base} {o : Out (Val b)} {d : Option (DVal b)} (h : Agree (Rep b) o d) :
    Agree (Rep b) (guard b o) (close b d) := by
  cases b with
  | int => exact h
  | set => exact h
  | bool => exact h.catchU

theorem EnvRep.set {env : Env} {denv : DEnv} (h : EnvRep env denv) {b : Base} {n : Nat} {v : Val b}
    {d : DVal b} (hr : Rep b v d) : EnvRep (env.set b n v) (denv.set b n d) := by
  refine ⟨?_, h.a, ?_, h.a'⟩
  · intro b' n' v' hv
    simp only [EnvOf.set] at hv ⊢
    by_cases hb : b' = b
    · subst hb
      simp only [dif_pos] at hv ⊢
      by_cases hn : n' = n
      · simp only [if_pos hn, Option.some.injEq] at hv ⊢; subst hv; exact ⟨d, rfl, hr⟩
      · simp only [if_neg hn] at hv ⊢; exact h.s _ _ _ hv
    · simp only [dif_neg hb] at hv ⊢; exact h.s _ _ _ hv
  · intro b' n' hv
    simp only [EnvOf.set] at hv ⊢
    by_cases hb : b' = b
    · subst hb
      simp only [dif_pos] at hv ⊢
      by_cases hn : n' = n
      · simp [if_pos hn] at hv
      · simp only [if_neg hn] at hv ⊢; exact h.s' _ _ hv
    · simp only [dif_neg hb] at hv ⊢; exact h.s' _ _ hv

theorem denE_bool (R : (b : Base) → Nat → List AnyD → Option (DVal b)) (e : E .bool) (env : DEnv) :
    ∃ x, denE R e env = some x := by
  cases e <;> simp [denE, truth, close]

/-! ## Integers -/

theorem arith_agree (op : AOp) {a b : Int} (ha : inLL a) (hb : inLL b) :
    Agree (Rep .int) (arith op a b) (mathArith op a b) := by
  have key : ∀ (o : ArithOp), Agree (Rep .int) (.ofRes (o.code (.fin a) (.fin b))) (o.math a b) := by
    intro o
    cases h : o.code (.fin a) (.fin b) with
    | ok r =>
      obtain ⟨_, h2, h3⟩ := C01_result_exact o ha hb h
      rw [h3]; exact ⟨r.v, rfl, rfl, h2⟩
    | err => trivial
    | ub => trivial
  cases op with
  | plus => exact key .add
  | minus => exact key .sub
  | mult => exact key .mul
  | idiv =>
    simp only [arith, mathArith]
    by_cases h0 : b = 0
    · rw [if_pos h0, if_pos h0]; rfl
    · rw [if_neg h0, if_neg h0]
      have := key .div
      simpa only [ArithOp.code, ArithOp.math, if_neg h0] using this
  | mod =>
    simp only [arith, mathArith]
    by_cases h0 : b = 0
    · rw [if_pos h0, if_pos h0]; rfl
    · rw [if_neg h0, if_neg h0]
      have := key .mod
      simpa only [ArithOp.code, ArithOp.math, if_neg h0] using this
  | pow =>
    simp only [arith, mathArith]
    by_cases h0 : a = 0 ∧ b < 0
    · rw [if_pos h0, if_neg (by omega), if_pos h0.1]; rfl
    · rw [if_neg h0]
      cases h : IntVal.pow (.fin a) (.fin b) with
      | ok r =>
        obtain ⟨_, h2, h3⟩ := C04_pow_exact ha hb h
        by_cases hb0 : 0 ≤ b
        · rw [if_pos hb0] at h3 ⊢; exact ⟨_, rfl, h3, h3 ▸ h2⟩
        · rw [if_neg hb0] at h3 ⊢; rw [if_neg (by omega)]; exact ⟨_, rfl, h3, h3 ▸ h2⟩
      | err => trivial
      | ub => trivial

theorem neg_agree {a : Int} (ha : inLL a) :
    Agree (Rep .int) (.ofRes (IntVal.neg (.fin a))) (some (-a)) := by
  rw [C01_neg ha]
  split
  · exact ⟨_, rfl, rfl, by assumption⟩
  · trivial

theorem lt_fin (a b : Int) : IntVal.lt (.fin a) (.fin b) = true ↔ a < b := by
  simp [IntVal.lt, IntVal.fin, IntVal.isPlusInfinity, IntVal.isMinusInfinity, IntVal.isFinite]
  exact decide_eq_true_iff

theorem le_fin (a b : Int) : IntVal.le (.fin a) (.fin b) = true ↔ a ≤ b := by
  simp [IntVal.le, IntVal.fin, IntVal.isPlusInfinity, IntVal.isMinusInfinity, IntVal.isFinite]
  exact decide_eq_true_iff

theorem icmp_eq (op : ICmp) (a b : Int) : icmp op a b = true ↔ mathICmp op a b := by
  cases op with
  | le => exact lt_fin a b
  | lq => exact le_fin a b
  | gr => exact lt_fin b a
  | gq => exact le_fin b a
  | eq => simp [icmp, mathICmp, IntVal.eqb, IntVal.fin]
  | nq => simp [icmp, mathICmp, IntVal.eqb, IntVal.neb, IntVal.fin]

theorem min_eq (a b : Int) : (IntVal.min (.fin a) (.fin b)).v = min a b := by
  have h := lt_fin b a
  unfold IntVal.min
  by_cases hc : IntVal.lt (.fin b) (.fin a) = true
  · rw [if_pos hc]; have := h.1 hc; show b = min a b; omega
  · rw [if_neg hc]; have : ¬ b < a := fun h' => hc (h.2 h'); show a = min a b; omega

theorem max_eq (a b : Int) : (IntVal.max (.fin a) (.fin b)).v = max a b := by
  have h := lt_fin a b
  unfold IntVal.max
  by_cases hc : IntVal.lt (.fin a) (.fin b) = true
  · rw [if_pos hc]; have := h.1 hc; show b = max a b; omega
  · rw [if_neg hc]; have : ¬ a < b := fun h' => hc (h.2 h'); show a = max a b; omega

/-! ## Sets -/

theorem rep_bounded {v : List Range} {A : Finset Int} (h : Rep .set v A) :
    ∀ r ∈ v, ∃ a b, r.lo = .fin a ∧ r.hi = .fin b ∧ a ≤ b := by
  intro r hr
  obtain ⟨h1, h2, h3⟩ := h
  have hv := h1.1 r hr
  obtain ⟨lo, hi⟩ := r
  have hmem : ∀ x, lo ≤ .fin x → .fin x ≤ hi → inLL x := fun x hx hx' =>
    h3 x ((h2 x).1 ⟨_, hr, hx, hx'⟩)
  cases lo with
  | posInf => exact absurd rfl hv.2.1
  | negInf =>
    cases hi with
    | negInf => exact absurd rfl hv.2.2
    | posInf =>
      have := hmem (LMAX + 1) trivial trivial
      unfold inLL LMAX LMIN at this; omega
    | fin b =>
      have := hmem (min b (LMIN - 1)) trivial (show min b (LMIN - 1) ≤ b by omega)
      unfold inLL LMAX LMIN at this; omega
  | fin a =>
    cases hi with
    | negInf => exact absurd rfl hv.2.2
    | posInf =>
      have := hmem (max a (LMAX + 1)) (show a ≤ max a (LMAX + 1) by omega) trivial
      unfold inLL LMAX LMIN at this; omega
    | fin b => exact ⟨a, b, rfl, rfl, hv.1⟩

theorem dotdot_rep {a b : Int} (ha : inLL a) (hb : inLL b) :
    Rep .set (IntSet.ofBounds (.fin a) (.fin b)) (Finset.Icc a b) := by
  obtain ⟨h1, h2⟩ := C05_of_bounds (.fin a) (.fin b) (by simp) (by simp)
  refine ⟨h1, fun x => ?_, fun x hx => ?_⟩
  · rw [h2 x, Finset.mem_Icc]; exact Iff.rfl
  · rw [Finset.mem_Icc] at hx; unfold inLL at *; omega

theorem ofValues_rep {vs ds : List Int} (h : List.Forall₂ (Rep .int) vs ds) :
    Rep .set (IntSet.ofValues vs) ds.toFinset := by
  have he : vs = ds ∧ ∀ x ∈ ds, inLL x := by
    induction h with
    | nil => simp
    | cons hx _ ih =>
      obtain ⟨rfl, h2⟩ := hx
      refine ⟨by rw [ih.1], ?_⟩
      intro x hx; rcases List.mem_cons.1 hx with rfl | hx
      · exact h2
      · exact ih.2 x hx
  obtain ⟨rfl, h2⟩ := he
  obtain ⟨h3, h4⟩ := C05_of_values vs
  refine ⟨h3, fun x => ?_, fun x hx => h2 x (List.mem_toFinset.1 hx)⟩
  rw [h4 x, List.mem_toFinset]

theorem sop_agree (op : SOp) {u v : List Range} {A B : Finset Int} (hu : Rep .set u A)
    (hv : Rep .set v B) : Agree (Rep .set) (sop op u v) (some (mathSop op A B)) := by
  obtain ⟨u1, u2, u3⟩ := hu
  obtain ⟨v1, v2, v3⟩ := hv
  have hdiff : ∀ {p q : List Range} {C D : Finset Int}, Rep .set p C → Rep .set q D →
      Agree (Rep .set) (diffO p q) (some (C \ D)) := by
    rintro p q C D ⟨p1, p2, p3⟩ ⟨q1, q2, q3⟩
    obtain ⟨l, e, h1, h2⟩ := C06_diff p q p1 q1
    unfold diffO; rw [e]
    refine ⟨_, rfl, h1, fun x => ?_, fun x hx => p3 x (Finset.mem_sdiff.1 hx).1⟩
    rw [h2, p2, q2, Finset.mem_sdiff]
  have hun : Rep .set (Ranges.union u v) (A ∪ B) := by
    obtain ⟨h1, h2⟩ := C06_union u v u1 v1
    refine ⟨h1, fun x => by rw [h2, u2, v2, Finset.mem_union], fun x hx => ?_⟩
    rcases Finset.mem_union.1 hx with h | h
    · exact u3 x h
    · exact v3 x h
  have hin : Rep .set (Ranges.inter u v) (A ∩ B) := by
    obtain ⟨h1, h2⟩ := C06_inter u v u1 v1
    exact ⟨h1, fun x => by rw [h2, u2, v2, Finset.mem_inter],
      fun x hx => u3 x (Finset.mem_inter.1 hx).1⟩
  cases op with
  | union => exact ⟨_, rfl, hun⟩
  | intersect => exact ⟨_, rfl, hin⟩
  | diff => exact hdiff ⟨u1, u2, u3⟩ ⟨v1, v2, v3⟩
  | symdiff =>
    have := hdiff hun hin
    simp only [sop, mathSop]
    rwa [show symmDiff A B = (A ∪ B) \ (A ∩ B) from ?_]
    ext x; simp only [Finset.mem_symmDiff, Finset.mem_sdiff, Finset.mem_union, Finset.mem_inter]
    tauto

theorem scmp_eq (op : SCmp) {u v : List Range} {A B : Finset Int} (hu : Rep .set u A)
    (hv : Rep .set v B) : scmp op u v = true ↔ mathSCmp op A B := by
  have bu : ∀ r ∈ u, r.lo ≠ .negInf := by
    intro r hr h; obtain ⟨a, b, h1, _⟩ := rep_bounded hu r hr; rw [h1] at h; simp at h
  have bv : ∀ r ∈ v, r.lo ≠ .negInf := by
    intro r hr h; obtain ⟨a, b, h1, _⟩ := rep_bounded hv r hr; rw [h1] at h; simp at h
  obtain ⟨u1, u2, _⟩ := hu
  obtain ⟨v1, v2, _⟩ := hv
  have fu : (Mem · u) = (· ∈ A) := by funext x; exact propext (u2 x)
  have fv : (Mem · v) = (· ∈ B) := by funext x; exact propext (v2 x)
  have eqI : (∀ x, Mem x u ↔ Mem x v) ↔ A = B := by
    simp only [u2, v2]; exact (Finset.ext_iff).symm
  have eqI' : (∀ x, Mem x v ↔ Mem x u) ↔ B = A := by
    simp only [u2, v2]; exact (Finset.ext_iff).symm
  have l1 := C08_less_lex u v u1 v1 bu bv
  have l2 := C08_less_lex v u v1 u1 bv bu
  rw [fu, fv] at l1 l2
  rw [eqI] at l1; rw [eqI'] at l2
  cases op with
  | le => exact l1.1
  | lq => exact l1.2
  | gr => exact l2.1
  | gq => exact l2.2
  | eq => exact (C07_equal u v u1 v1).1.trans eqI
  | nq =>
    have := (C07_equal u v u1 v1).1.trans eqI
    simp only [scmp, mathSCmp, Bool.not_eq_true', ne_eq, ← this, Bool.not_eq_true]
  | subset =>
    refine (C07_subset u v u1 v1).trans ?_
    simp only [u2, v2]; exact Iff.rfl
  | superset =>
    refine (C07_subset v u v1 u1).trans ?_
    simp only [u2, v2]; exact Iff.rfl

theorem contains_rep {v : List Range} {A : Finset Int} (h : Rep .set v A) (x : Int) :
    IntSet.contains (.fin x) v = true ↔ x ∈ A := (C07_contains x v h.1).trans (h.2.1 x)

theorem card_agree {v : List Range} {A : Finset Int} (h : Rep .set v A) :
    Agree (Rep .int) (card v) (some (A.card : Int)) := by
  have hc := C07_cardinality v h.1
  have hs : {x | Mem x v} = (A : Set Int) := by ext x; exact h.2.1 x
  unfold card
  cases e : Ranges.cardinality v with
  | fin n =>
    have := (hc.1 n e).2
    rw [hs, Set.ncard_coe_finset] at this
    dsimp only
    split
    · exact ⟨_, rfl, this.symm, this ▸ by assumption⟩
    · trivial
  | posInf => trivial
  | negInf => trivial

theorem smin_agree {v : List Range} {A : Finset Int} (h : Rep .set v A) :
    Agree (Rep .int) (match IntSet.min? v with
      | some (.fin n) => .val n
      | some _ => .err
      | none => .undef) (if h : A.Nonempty then some (A.min' h) else none) := by
  cases e : IntSet.min? v with
  | none =>
    have hv : v = [] := by simpa [IntSet.min?] using e
    subst hv
    have : ¬ A.Nonempty := by
      rintro ⟨x, hx⟩; exact Mem_nil ((h.2.1 x).2 hx)
    simp only [dif_neg this]; rfl
  | some m =>
    cases m with
    | fin n =>
      obtain ⟨h1, h2⟩ := (C07_min_max v h.1 n).1.1 e
      have hn : A.Nonempty := ⟨n, (h.2.1 n).1 h1⟩
      simp only [dif_pos hn]
      refine ⟨_, rfl, ?_, h.2.2 _ (Finset.min'_mem _ _)⟩
      refine le_antisymm (h2 _ ((h.2.1 _).2 (Finset.min'_mem _ _))) (Finset.min'_le _ _ ((h.2.1 n).1 h1))
    | posInf => trivial
    | negInf => trivial

theorem smax_agree {v : List Range} {A : Finset Int} (h : Rep .set v A) :
    Agree (Rep .int) (match IntSet.max? v with
      | some (.fin n) => .val n
      | some _ => .err
      | none => .undef) (if h : A.Nonempty then some (A.max' h) else none) := by
  cases e : IntSet.max? v with
  | none =>
    have hv : v = [] := by simpa [IntSet.max?] using e
    subst hv
    have : ¬ A.Nonempty := by
      rintro ⟨x, hx⟩; exact Mem_nil ((h.2.1 x).2 hx)
    simp only [dif_neg this]; rfl
  | some m =>
    cases m with
    | fin n =>
      obtain ⟨h1, h2⟩ := (C07_min_max v h.1 n).2.1 e
      have hn : A.Nonempty := ⟨n, (h.2.1 n).1 h1⟩
      simp only [dif_pos hn]
      refine ⟨_, rfl, ?_, h.2.2 _ (Finset.max'_mem _ _)⟩
      refine le_antisymm (Finset.le_max' _ _ ((h.2.1 n).1 h1)) (h2 _ ((h.2.1 _).2 (Finset.max'_mem _ _)))
    | posInf => trivial
    | negInf => trivial

theorem rangeVals_spec {a b : Int} :
    (rangeVals ⟨.fin a, .fin b⟩).Pairwise (· < ·) ∧
    ∀ x, x ∈ rangeVals ⟨.fin a, .fin b⟩ ↔ a ≤ x ∧ x ≤ b := by
  constructor
  · simp only [rangeVals, List.pairwise_map]
    exact List.pairwise_lt_range.imp (fun h => by omega)
  · intro x
    simp only [rangeVals, List.mem_map, List.mem_range]
    constructor
    · rintro ⟨k, h1, rfl⟩; omega
    · rintro ⟨h1, h2⟩; exact ⟨(x - a).toNat, by omega, by omega⟩

theorem setVals_spec {v : List Range} (hn : Normal v)
    (hb : ∀ r ∈ v, ∃ a b, r.lo = .fin a ∧ r.hi = .fin b ∧ a ≤ b) :
    (setVals v).Pairwise (· < ·) ∧ ∀ x, x ∈ setVals v ↔ Mem x v := by
  constructor
  · induction v with
    | nil => simp [setVals]
    | cons r v ih =>
      have hn' := NF_cons.1 (normal_iff.1 hn)
      have ihv := ih (normal_iff.2 hn'.2.2) (fun r' h => hb r' (by simp [h]))
      obtain ⟨a, b, h1, h2, h3⟩ := hb r (by simp)
      obtain ⟨lo, hi⟩ := r
      simp only at h1 h2; subst h1; subst h2
      have : setVals (⟨.fin a, .fin b⟩ :: v) = rangeVals ⟨.fin a, .fin b⟩ ++ setVals v := by
        simp [setVals]
      rw [this, List.pairwise_append]
      refine ⟨rangeVals_spec.1, ihv, ?_⟩
      intro x hx y hy
      have hx := (rangeVals_spec.2 x).1 hx
      simp only [setVals, List.mem_flatMap] at hy
      obtain ⟨r', hr', hy⟩ := hy
      obtain ⟨a', b', e1, e2, h4⟩ := hb r' (by simp [hr'])
      obtain ⟨lo', hi'⟩ := r'
      simp only at e1 e2; subst e1; subst e2
      have hy := (rangeVals_spec.2 y).1 hy
      have hlt := (List.pairwise_cons.1 hn.2).1 _ hr'
      have hlt : b + 1 < a' := by
        have := hlt.2
        simp only [Ext.succ] at this
        exact not_le.1 this
      omega
  · intro x
    simp only [setVals, List.mem_flatMap, Mem]
    constructor
    · rintro ⟨r, hr, hx⟩
      obtain ⟨a, b, e1, e2, h4⟩ := hb r hr
      obtain ⟨lo, hi⟩ := r
      simp only at e1 e2; subst e1; subst e2
      exact ⟨_, hr, (rangeVals_spec.2 x).1 hx⟩
    · rintro ⟨r, hr, hx⟩
      obtain ⟨a, b, e1, e2, h4⟩ := hb r hr
      obtain ⟨lo, hi⟩ := r
      simp only at e1 e2; subst e1; subst e2
      exact ⟨_, hr, (rangeVals_spec.2 x).2 hx⟩

theorem setVals_rep {v : List Range} {A : Finset Int} (h : Rep .set v A) :
    setVals v = A.sort (· ≤ ·) := by
  obtain ⟨h1, h2⟩ := setVals_spec h.1 (rep_bounded h)
  refine List.SortedLT.eq_of_mem_iff ?_ (Finset.sortedLT_sort A) ?_
  · exact List.sortedLT_iff_pairwise.2 h1
  · intro x; rw [h2, h.2.1, Finset.mem_sort]

theorem domCheck_agree (b : Base) {v : Val b} {d : DVal b} (hv : Rep b v d) {o : Out (List Range)}
    {D : Option (Finset Int)} (h : Agree (Rep .set) o D) :
    Agree (fun (x : Bool) (p : Prop) => x = true ↔ p) (domCheck b v o) (inDom b d D) := by
  cases b with
  | bool => exact ⟨True, rfl, by simp⟩
  | int =>
    obtain ⟨rfl, _⟩ := hv
    cases o with
    | val s => obtain ⟨A, rfl, hA⟩ := h; exact ⟨_, rfl, contains_rep hA _⟩
    | undef => have h : D = none := h; subst h; rfl
    | err => trivial
    | ub => trivial
  | set =>
    cases o with
    | val s =>
      obtain ⟨A, rfl, hA⟩ := h
      refine ⟨_, rfl, (C07_subset v s hv.1 hA.1).trans ?_⟩
      simp only [hv.2.1, hA.2.1]; exact Iff.rfl
    | undef => have h : D = none := h; subst h; rfl
    | err => trivial
    | ub => trivial

end Eval
end MZ
