import Verif.Eval.Calls
import Verif.Eval.Fits
import Mathlib.Algebra.Order.Ring.Abs
/-!
# The evaluation of parameter expressions: no errors without overflow
-/
namespace MZ
namespace Eval
open Classical

/-- Neither an error nor undefined behaviour. -/
def Fine {α : Type} (o : Out α) : Prop := o ≠ .err ∧ o ≠ .ub

theorem Fine.val {α : Type} (a : α) : Fine (Out.val a) := ⟨by simp, by simp⟩
theorem Fine.undef {α : Type} : Fine (Out.undef : Out α) := ⟨by simp, by simp⟩

theorem Fine.bind' {α β : Type} {o : Out α} {f : α → Out β} (h : Fine o)
    (hf : ∀ a, o = .val a → Fine (f a)) : Fine (o >>= f) := by
  cases o with
  | val a => exact hf a rfl
  | undef => exact Fine.undef
  | err => exact absurd rfl h.1
  | ub => exact absurd rfl h.2

theorem Fine.bind {α δ β : Type} {r : α → δ → Prop} {o : Out α} {d : Option δ} {f : α → Out β}
    (hs : Agree r o d) (h : Fine o) (hf : ∀ a x, d = some x → r a x → Fine (f a)) :
    Fine (o >>= f) := by
  refine h.bind' ?_
  rintro a rfl
  obtain ⟨x, e, hx⟩ := hs
  exact hf a x e hx

theorem Fine.catchU {o : Out Bool} (h : Fine o) : Fine (Out.catchU o) := by
  cases o with
  | val a => exact Fine.val _
  | undef => exact Fine.val _
  | err => exact absurd rfl h.1
  | ub => exact absurd rfl h.2

theorem Fine.guard {b : Base} {o : Out (Val b)} (h : Fine o) : Fine (Eval.guard b o) := by
  cases b with
  | int => exact h
  | set => exact h
  | bool => exact h.catchU

/-! ## Integers -/

theorem magLL_inLL {a : Int} (h : magLL a) : inLL a := by
  unfold magLL at h; unfold inLL; unfold LMIN LMAX at *; omega

theorem magLL_ne {a : Int} (h : magLL a) : a ≠ LMIN := by
  unfold magLL at h; unfold LMIN LMAX at *; omega

theorem ofRes_fine {r : Res IntVal} {z : IntVal} (h : r = .ok z) : Fine (Out.ofRes r) := by
  subst h; exact Fine.val _

theorem mulAssign_fin (a b : Int) : IntVal.mulAssign (.fin a) (.fin b) = IntVal.mul (.fin a) (.fin b) :=
  rfl

theorem mul_ok {a b : Int} (ha : magLL a) (hb : magLL b) (hc : magLL (a * b)) :
    IntVal.mul (.fin a) (.fin b) = .ok (.fin (a * b)) := by
  rw [C01_mul (magLL_inLL ha) (magLL_inLL hb)]
  by_cases h0 : b = 0
  · rw [if_pos h0]; subst h0; simp
  · rw [if_neg h0, if_neg (by have := magLL_ne ha; have := magLL_ne hb; tauto), if_pos hc]

theorem powLoop_ok {b : Int} (hb : magLL b) : ∀ (n : Nat) (i r : Int), i + n ≤ INTMAX →
    (∀ k, k ≤ n → magLL (r * b ^ k)) → IntVal.powLoop (.fin b) n i (.fin r) = .ok (.fin (r * b ^ n))
  | 0, i, r, _, _ => by simp [IntVal.powLoop]
  | n + 1, i, r, hi, h => by
    have h0 : magLL r := by simpa using h 0 (by omega)
    have h1 : magLL (r * b) := by simpa using h 1 (by omega)
    simp only [IntVal.powLoop, mulAssign_fin]
    rw [mul_ok h0 hb h1]
    show (if i = INTMAX then _ else _) = _
    rw [if_neg (by push_cast at hi; omega), powLoop_ok hb n (i + 1) (r * b) (by push_cast at hi; omega) ?_]
    · rw [pow_succ' b n, mul_assign_eq]
    · intro k hk
      have := h (k + 1) (by omega)
      rwa [pow_succ', ← mul_assoc] at this
where
  mul_assign_eq {r b x : Int} : r * b * x = r * (b * x) := mul_assoc r b x

theorem magLL_pow_le {b : Int} {n : Nat} (h : magLL (b ^ n)) : ∀ k, k ≤ n → magLL (b ^ k) := by
  intro k hk
  by_cases h0 : b = 0
  · subst h0
    cases k with
    | zero => simp [magLL, LMAX]
    | succ k => simp [magLL, LMAX]
  have h1 : |b ^ k| ≤ |b ^ n| := by
    rw [abs_pow, abs_pow]
    exact pow_le_pow_right₀ (Int.one_le_abs h0) hk
  unfold magLL at *
  rw [← abs_le] at h ⊢
  omega

theorem pow_fine {a b : Int} (ha : magLL a) (hb : magLL b) (h0 : ¬ (a = 0 ∧ b < 0)) (hi : b ≤ INTMAX)
    (hc : 0 ≤ b → magLL (a ^ b.toNat)) : Fine (Out.ofRes (IntVal.pow (.fin a) (.fin b))) := by
  have heq : ∀ a c : Int, IntVal.eqb (.fin a) (.fin c) = decide (a = c) := by
    intro a c; simp [IntVal.eqb, IntVal.fin]; rfl
  have hv : ∀ a : Int, (IntVal.fin a).v = a := fun _ => rfl
  have hf : ∀ a : Int, (IntVal.fin a).isFinite = true := fun _ => rfl
  simp only [IntVal.pow, heq, hf, hv, Bool.not_true, Bool.or_self, Bool.false_eq_true, if_false,
    decide_eq_true_eq]
  by_cases h1 : b = 0
  · rw [if_pos h1]; exact Fine.val _
  rw [if_neg h1]
  by_cases h2 : b = 1
  · rw [if_pos h2]; exact Fine.val _
  rw [if_neg h2]
  by_cases h3 : b < 0
  · rw [if_pos h3, if_neg (by tauto)]
    by_cases h4 : a = 1
    · rw [if_pos h4]; exact Fine.val _
    rw [if_neg h4]
    by_cases h5 : a = -1
    · rw [if_pos h5, C01_mod (magLL_inLL hb) (by decide), if_neg (by decide)]
      exact Fine.val _
    · rw [if_neg h5]; exact Fine.val _
  · rw [if_neg h3, powLoop_ok ha b.toNat 0 1 (by omega) ?_]
    · exact Fine.val _
    · intro k hk
      rw [one_mul]; exact magLL_pow_le (hc (by omega)) k hk

theorem arith_fine {op : AOp} {a b : Int} (h : okArith op a b) : Fine (arith op a b) := by
  obtain ⟨ha, hb, hc, hp⟩ := h
  have ia := magLL_inLL ha
  have ib := magLL_inLL hb
  cases op with
  | plus =>
    simp only [arith]; rw [C01_add ia ib, if_pos (magLL_inLL (hc _ rfl))]; exact Fine.val _
  | minus =>
    simp only [arith]; rw [C01_sub ia ib, if_pos (magLL_inLL (hc _ rfl))]; exact Fine.val _
  | mult =>
    simp only [arith]; rw [mul_ok ha hb (hc _ rfl)]; exact Fine.val _
  | idiv =>
    simp only [arith]
    by_cases h0 : b = 0
    · rw [if_pos h0]; exact Fine.undef
    · rw [if_neg h0, C01_div ia ib, if_neg h0, if_neg (by have := magLL_ne ha; tauto)]
      exact Fine.val _
  | mod =>
    simp only [arith]
    by_cases h0 : b = 0
    · rw [if_pos h0]; exact Fine.undef
    · rw [if_neg h0, C01_mod ia ib, if_neg h0]; exact Fine.val _
  | pow =>
    simp only [arith]
    by_cases h0 : a = 0 ∧ b < 0
    · rw [if_pos h0]; exact Fine.undef
    · rw [if_neg h0]
      refine pow_fine ha hb h0 (hp rfl) (fun hb0 => hc _ ?_)
      simp only [mathArith, if_pos hb0]

/-! ## Sets -/

theorem sop_fine (op : SOp) {u v : List Range} {A B : Finset Int} (hu : Rep .set u A)
    (hv : Rep .set v B) : Fine (sop op u v) := by
  have hd : ∀ {p q : List Range}, Normal p → Normal q → Fine (diffO p q) := by
    intro p q hp hq
    obtain ⟨l, e, _⟩ := C06_diff p q hp hq
    unfold diffO; rw [e]; exact Fine.val _
  cases op with
  | union => exact Fine.val _
  | intersect => exact Fine.val _
  | diff => exact hd hu.1 hv.1
  | symdiff => exact hd (C06_union u v hu.1 hv.1).1 (C06_inter u v hu.1 hv.1).1

theorem card_fine {v : List Range} {A : Finset Int} (h : Rep .set v A) (hA : inLL A.card) :
    Fine (card v) := by
  have hc := C07_cardinality v h.1
  have hs : {x | Mem x v} = (A : Set Int) := by ext x; exact h.2.1 x
  unfold card
  cases e : Ranges.cardinality v with
  | fin n =>
    have := (hc.1 n e).2
    rw [hs, Set.ncard_coe_finset] at this
    dsimp only
    rw [if_pos (this ▸ hA)]; exact Fine.val _
  | posInf =>
    have := hc.2.1.1 e
    rw [hs] at this; exact absurd A.finite_toSet this
  | negInf => exact absurd e hc.2.2

theorem smin_fine {v : List Range} {A : Finset Int} (h : Rep .set v A) :
    Fine (match IntSet.min? v with
      | some (.fin n) => Out.val n
      | some _ => .err
      | none => .undef) := by
  cases v with
  | nil => exact Fine.undef
  | cons r v =>
    obtain ⟨a, b, e, _⟩ := rep_bounded h r (by simp)
    simp only [IntSet.min?, List.head?_cons, Option.map_some, e]; exact Fine.val _

theorem smax_fine {v : List Range} {A : Finset Int} (h : Rep .set v A) :
    Fine (match IntSet.max? v with
      | some (.fin n) => Out.val n
      | some _ => .err
      | none => .undef) := by
  cases hl : v.getLast? with
  | none => simp only [IntSet.max?, hl, Option.map_none]; exact Fine.undef
  | some r =>
    obtain ⟨a, b, _, e, _⟩ := rep_bounded h r (List.mem_of_getLast? hl)
    simp only [IntSet.max?, hl, Option.map_some, e]; exact Fine.val _

/-! ## Aggregation -/

theorem foldO_fine {f : Int → Int → Out Int} {g : Int → Int → Int}
    (hfg : ∀ m v, inLL m → inLL v → Agree (Rep .int) (f m v) (some (g m v)))
    {xs : List (Unit → Out Int)} {os : List (Option Int)} (h : Elems .int xs os)
    (hx : ∀ t ∈ xs, Fine (t ())) :
    ∀ m, inLL m → (∀ k vs v, allSome (os.take k) = some vs → os[k]? = some (some v) → inLL v →
      Fine (f (vs.foldl g m) v)) → Fine (foldO f m xs) := by
  induction h with
  | nil => intro m _ _; exact Fine.val _
  | @cons x o xs os hxo _ ih =>
    intro m hm hok
    simp only [foldO]
    refine Fine.bind hxo (hx x (by simp)) ?_
    rintro v v' rfl ⟨rfl, hv⟩
    have h1 := hok 0 [] v rfl (by simp) hv
    refine Fine.bind (hfg m v hm hv) h1 ?_
    rintro m' x' e ⟨rfl, hm'⟩
    simp only [Option.some.injEq] at e
    refine ih (fun t ht => hx t (by simp [ht])) m' hm' ?_
    intro k vs w hvs hw hwl
    have := hok (k + 1) (v :: vs) w (by simp [allSome, hvs]) (by simpa using hw) hwl
    rwa [List.foldl_cons, e] at this

theorem argLoop_fine {better : Int → Int → Bool} {xs : List (Unit → Out Int)}
    (hx : ∀ t ∈ xs, Fine (t ())) : ∀ i m mi, Fine (argLoop better i m mi xs) := by
  induction xs with
  | nil => intro i m mi; exact Fine.val _
  | cons x xs ih =>
    intro i m mi
    simp only [argLoop]
    refine (hx x (by simp)).bind' ?_
    intro v _
    have ih := ih (fun t ht => hx t (by simp [ht]))
    split
    · exact ih _ _ _
    · exact ih _ _ _

theorem scan_fine (stop : Bool) {xs : List (Unit → Out Bool)} (hx : ∀ t ∈ xs, Fine (t ())) :
    Fine (scan stop xs) := by
  induction xs with
  | nil => exact Fine.val _
  | cons x xs ih =>
    simp only [scan]
    refine (hx x (by simp)).bind' ?_
    intro v _
    split
    · exact Fine.val _
    · exact ih (fun t ht => hx t (by simp [ht]))

theorem count_fine {xs : List (Unit → Out Bool)} (hx : ∀ t ∈ xs, Fine (t ())) :
    Fine (count xs) := by
  induction xs with
  | nil => exact Fine.val _
  | cons x xs ih =>
    simp only [count]
    refine (hx x (by simp)).bind' ?_
    intro v _
    refine (ih (fun t ht => hx t (by simp [ht]))).bind' ?_
    intro c _; exact Fine.val _

theorem bagg_fine (op : BAgg) {xs : List (Unit → Out Bool)} (hx : ∀ t ∈ xs, Fine (t ())) :
    Fine (bagg op xs) := by
  have hr : ∀ t ∈ xs.reverse, Fine (t ()) := fun t ht => hx t (List.mem_reverse.1 ht)
  cases op with
  | all => exact (scan_fine _ hr).bind' (fun _ _ => Fine.val _)
  | any => exact scan_fine _ hr
  | xorall => exact (count_fine hr).bind' (fun _ _ => Fine.val _)
  | iffall => exact (count_fine hr).bind' (fun _ _ => Fine.val _)

theorem bop_fine (op : BOp) {l r : Unit → Out Bool} {pl pr : Prop} {a b : Option Bool}
    (hl : Agree (Rep .bool) (l ()) a) (hr : Agree (Rep .bool) (r ()) b)
    (fl : pl → Fine (l ())) (fr : pr → Fine (r ())) (h : okBop op pl pr a b) : Fine (bop op l r) := by
  have strict : ∀ (f : Bool → Bool → Bool), pl ∧ pr →
      Fine (do let a ← l (); let b ← r (); Out.val (f a b)) := by
    rintro f ⟨h1, h2⟩
    exact (fl h1).bind' fun _ _ => (fr h2).bind' fun _ _ => Fine.val _
  cases op with
  | le => exact strict _ h
  | lq => exact strict _ h
  | gr => exact strict _ h
  | gq => exact strict _ h
  | eq => exact strict _ h
  | nq => exact strict _ h
  | equiv => exact strict _ h
  | xor => exact strict _ h
  | and =>
    refine Fine.bind hl (fl h.1) ?_
    intro v x e hx
    have hx : v = x := hx
    subst hx
    cases v with
    | true => exact fr (h.2 e)
    | false => exact Fine.val _
  | or =>
    refine Fine.bind hl (fl h.1) ?_
    intro v x e hx
    have hx : v = x := hx
    subst hx
    cases v with
    | true => exact Fine.val _
    | false => exact fr (h.2 e)
  | impl =>
    refine Fine.bind hl (fl h.1) ?_
    intro v x e hx
    have hx : v = x := hx
    subst hx
    cases v with
    | true => exact fr (h.2 e)
    | false => exact Fine.val _
  | rimpl =>
    refine Fine.bind hr (fr h.1) ?_
    intro v x e hx
    have hx : v = x := hx
    subst hx
    cases v with
    | true => exact fl (h.2 e)
    | false => exact Fine.val _

theorem argLoop_lt {better : Int → Int → Bool} {xs : List (Unit → Out Int)} :
    ∀ {i : Nat} {m : Int} {mi r : Nat}, mi < i → argLoop better i m mi xs = .val r →
      r < i + xs.length := by
  induction xs with
  | nil => intro i m mi r h e; simp only [argLoop, Out.val.injEq] at e; subst e; simpa using h
  | cons x xs ih =>
    intro i m mi r h e
    simp only [argLoop] at e
    cases hx : x () with
    | val v =>
      rw [hx] at e
      replace e : (if better v m = true then argLoop better (i + 1) v i xs
        else argLoop better (i + 1) m mi xs) = .val r := e
      rw [List.length_cons]
      by_cases hb : better v m = true
      · rw [if_pos hb] at e; have := ih (by omega) e; omega
      · rw [if_neg hb] at e; have := ih (by omega) e; omega
    | undef => rw [hx] at e; cases e
    | err => rw [hx] at e; cases e
    | ub => rw [hx] at e; cases e

theorem arg_fine {better : Int → Int → Bool} {lo : Int} {x : Unit → Out Int}
    {xs : List (Unit → Out Int)} (hx : ∀ t ∈ x :: xs, Fine (t ())) (h1 : inLL lo)
    (h2 : inLL ((x :: xs).length : Nat)) (h3 : inLL (lo + ((x :: xs).length : Nat))) :
    Fine (x () >>= fun m => argLoop better 1 m 0 xs >>= fun (i : Nat) =>
      Out.ofRes (IntVal.add (.fin i) (.fin lo))) := by
  refine (hx x (by simp)).bind' fun m _ => ?_
  refine (argLoop_fine (fun t ht => hx t (by simp [ht])) _ _ _).bind' fun i hi => ?_
  have := argLoop_lt (by omega) hi
  simp only [List.length_cons] at h2 h3
  push_cast at h2 h3
  unfold inLL at h1 h2 h3
  rw [C01_add (by unfold inLL; unfold LMIN LMAX at *; omega) h1,
    if_pos (by unfold inLL; unfold LMIN LMAX at *; omega)]
  exact Fine.val _

theorem allSome_snoc {os : List (Option Int)} {k : Nat} {vs : List Int} {v : Int}
    (h : allSome (os.take k) = some vs) (hv : os[k]? = some (some v)) :
    allSome (os.take (k + 1)) = some (vs ++ [v]) := by
  induction os generalizing k vs with
  | nil => simp at hv
  | cons o os ih =>
    cases k with
    | zero =>
      simp only [List.take_zero, allSome, Option.some.injEq] at h; subst h
      simp only [List.getElem?_cons_zero, Option.some.injEq] at hv; subst hv
      rfl
    | succ k =>
      cases o with
      | none => simp [allSome] at h
      | some a =>
        simp only [List.take_succ_cons, allSome, Option.map_eq_some_iff] at h ⊢
        obtain ⟨ws, h1, rfl⟩ := h
        exact ⟨_, ih h1 (by simpa using hv), rfl⟩

theorem iagg_fine {op : IAgg} {lo : Int} {xs : List (Unit → Out Int)} {os : List (Option Int)}
    (h : Elems .int xs os) (hx : ∀ t ∈ xs, Fine (t ())) (hok : okIAgg op lo os) :
    Fine (iagg op lo xs) := by
  have hlen : xs.length = os.length := h.length_eq
  cases op with
  | sum =>
    simp only [iagg]
    refine foldO_fine (g := (· + ·)) ?_ h hx 0 (by decide) ?_
    · intro m v hm hv; exact arith_agree .plus hm hv
    · intro k vs v h1 h2 hv
      have h3 := hok k vs h1
      have h4 := hok (k + 1) _ (allSome_snoc h1 h2)
      rw [foldl_add, zero_add, C01_add h3 hv, if_pos (by simpa using h4)]
      exact Fine.val _
  | product =>
    simp only [iagg]
    refine foldO_fine (g := (· * ·)) ?_ h hx 1 (by decide) ?_
    · intro m v hm hv; exact arith_agree .mult hm hv
    · intro k vs v h1 h2 hv
      have h3 := hok.2 k vs h1
      have h4 := hok.2 (k + 1) _ (allSome_snoc h1 h2)
      have h5 := hok.1 v (List.mem_of_getElem? h2)
      rw [foldl_mul, one_mul, mulAssign_fin, mul_ok h3 h5 (by simpa using h4)]
      exact Fine.val _
  | min =>
    cases h with
    | nil => exact Fine.undef
    | @cons x o xs os hxo hxs =>
      simp only [iagg]
      refine Fine.bind hxo (hx x (by simp)) ?_
      rintro m m' _ ⟨rfl, hm⟩
      refine foldO_fine (g := min) ?_ hxs (fun t ht => hx t (by simp [ht])) m hm ?_
      · intro m v hm hv; exact ⟨_, rfl, min_eq m v, by unfold inLL at *; omega⟩
      · intro k vs v _ _ _; exact Fine.val _
  | max =>
    cases h with
    | nil => exact Fine.undef
    | @cons x o xs os hxo hxs =>
      simp only [iagg]
      refine Fine.bind hxo (hx x (by simp)) ?_
      rintro m m' _ ⟨rfl, hm⟩
      refine foldO_fine (g := max) ?_ hxs (fun t ht => hx t (by simp [ht])) m hm ?_
      · intro m v hm hv; exact ⟨_, rfl, max_eq m v, by unfold inLL at *; omega⟩
      · intro k vs v _ _ _; exact Fine.val _
  | argMin =>
    cases xs with
    | nil => exact Fine.undef
    | cons x xs => exact arg_fine hx hok.1 (hlen ▸ hok.2.1) (hlen ▸ hok.2.2)
  | argMax =>
    cases xs with
    | nil => exact Fine.undef
    | cons x xs => exact arg_fine hx hok.1 (hlen ▸ hok.2.1) (hlen ▸ hok.2.2)

/-! ## Loops -/

theorem loopSet_fine {α : Type} {k : Int → Out (List α)} : ∀ (vs : List Int),
    (∀ v ∈ vs, Fine (k v) ∧ inLL v ∧ v ≠ LMAX) → Fine (loopSet vs k)
  | [], _ => Fine.val _
  | v :: vs, h => by
    obtain ⟨h1, h2, h3⟩ := h v (by simp)
    simp only [loopSet]
    refine h1.bind' fun _ _ => ?_
    rw [C01_incr h2, if_pos (by unfold inLL at *; unfold LMIN LMAX at *; omega)]
    refine (Fine.val _).bind' fun _ _ => ?_
    exact (loopSet_fine vs fun w hw => h w (by simp [hw])).bind' fun _ _ => Fine.val _

theorem loopArr_fine {α β : Type} {k : β → Out (List α)} : ∀ (vs : List β),
    (∀ v ∈ vs, Fine (k v)) → Fine (loopArr vs k)
  | [], _ => Fine.val _
  | v :: vs, h => by
    simp only [loopArr]
    refine (h v (by simp)).bind' fun _ _ => ?_
    exact (loopArr_fine vs fun w hw => h w (by simp [hw])).bind' fun _ _ => Fine.val _

theorem idsSet_fine {α : Type} {s : List Range} {A : Finset Int} (hs : Rep .set s A)
    (hc : inLL A.card) (hm : LMAX ∉ A) {k : Env → Out (List α)} {p : DEnv → Prop}
    (h : ∀ env denv, EnvRep env denv → p denv → Fine (k env)) :
    ∀ (ns : List Nat) (env : Env) (denv : DEnv), EnvRep env denv →
      allIds (b := .int) (A.sort (· ≤ ·)) ns denv p → Fine (idsSet s ns env k)
  | [], env, denv, he, hp => h env denv he hp
  | n :: ns, env, denv, he, hp => by
    simp only [idsSet]
    refine (card_fine hs hc).bind' fun _ _ => ?_
    rw [setVals_rep hs]
    refine loopSet_fine _ ?_
    intro v hv
    have hvA : v ∈ A := (Finset.mem_sort _).1 hv
    refine ⟨?_, hs.2.2 v hvA, fun e => hm (e ▸ hvA)⟩
    exact idsSet_fine hs hc hm h ns _ _ (he.set ⟨rfl, hs.2.2 v hvA⟩) (hp v hv)

theorem idsArr_fine {α : Type} {c : Base} {vs : List (Val c)} {ds : List (DVal c)}
    (hv : List.Forall₂ (Rep c) vs ds) {k : Env → Out (List α)} {p : DEnv → Prop}
    (h : ∀ env denv, EnvRep env denv → p denv → Fine (k env)) :
    ∀ (ns : List Nat) (env : Env) (denv : DEnv), EnvRep env denv →
      allIds ds ns denv p → Fine (idsArr vs ns env k)
  | [], env, denv, he, hp => h env denv he hp
  | n :: ns, env, denv, he, hp => by
    simp only [idsArr]
    refine loopArr_fine _ ?_
    intro v hvm
    obtain ⟨i, hi, rfl⟩ := List.mem_iff_getElem.1 hvm
    have hl : i < ds.length := hv.length_eq ▸ hi
    have hr := (List.forall₂_iff_get.1 hv).2 i hi hl
    exact idsArr_fine hv h ns _ _ (he.set hr) (hp _ (List.getElem_mem hl))

theorem domCheck_fine (b : Base) (v : Val b) {o : Out (List Range)} (h : Fine o) :
    Fine (domCheck b v o) := by
  cases b with
  | bool => exact Fine.val _
  | int => exact h.bind' fun _ _ => Fine.val _
  | set => exact h.bind' fun _ _ => Fine.val _

end Eval
end MZ
