import Verif.Eval.Rep
/-!
# The evaluation of parameter expressions: loops and aggregations
-/
namespace MZ
namespace Eval

/-- Evaluations of the elements of an array agree with their meanings. -/
abbrev Elems (b : Base) (xs : List (Unit → Out (Val b))) (os : List (Option (DVal b))) : Prop :=
  List.Forall₂ (fun t o => Agree (Rep b) (t ()) o) xs os

theorem elems_values {b : Base} {vs : List (Val b)} {ds : List (DVal b)}
    (h : List.Forall₂ (Rep b) vs ds) :
    Elems b (vs.map (fun v _ => Out.val v)) (ds.map some) := by
  induction h with
  | nil => exact .nil
  | cons hx _ ih => exact .cons ⟨_, rfl, hx⟩ ih

theorem allSome_map_some {α : Type} (l : List α) : allSome (l.map some) = some l := by
  induction l with
  | nil => rfl
  | cons a l ih => simp [allSome, ih]

theorem allSome_eq {α : Type} {os : List (Option α)} {l : List α} (h : allSome os = some l) :
    os = l.map some := by
  induction os generalizing l with
  | nil => simp [allSome] at h; subst h; rfl
  | cons o os ih =>
    cases o with
    | none => simp [allSome] at h
    | some a =>
      simp only [allSome, Option.map_eq_some_iff] at h
      obtain ⟨l', h1, rfl⟩ := h
      simp [ih h1]

/-- The loop of `sum`, `product`, `min`, `max`. -/
theorem foldO_agree {f : Int → Int → Out Int} {g : Int → Int → Int}
    (hf : ∀ m v, inLL m → inLL v → Agree (Rep .int) (f m v) (some (g m v)))
    {xs : List (Unit → Out Int)} {os : List (Option Int)} (h : Elems .int xs os) :
    ∀ m, inLL m → Agree (Rep .int) (foldO f m xs) ((allSome os).map (fun vs => vs.foldl g m)) := by
  induction h with
  | nil => intro m hm; exact ⟨_, rfl, rfl, hm⟩
  | @cons x o xs os hx _ ih =>
    intro m hm
    simp only [foldO]
    cases hxe : x () with
    | val v =>
      rw [hxe] at hx
      obtain ⟨d, rfl, rfl, hd⟩ := hx
      have h1 := hf m v hm hd
      show Agree (Rep .int) (f m v >>= fun m' => foldO f m' xs) _
      cases hfe : f m v with
      | val m' =>
        rw [hfe] at h1
        obtain ⟨d', h2, h3, h4⟩ := h1
        simp only [Option.some.injEq] at h2
        have := ih m' (h3 ▸ h4)
        show Agree (Rep .int) (foldO f m' xs) _
        simp only [allSome, Option.map_map]
        rw [h3, ← h2] at this ⊢
        exact this
      | undef => rw [hfe] at h1; simp [Agree] at h1
      | err => trivial
      | ub => trivial
    | undef =>
      rw [hxe] at hx
      have hx : o = none := hx
      subst hx; rfl
    | err => trivial
    | ub => trivial

theorem add_agree {m v : Int} (hm : inLL m) (hv : inLL v) :
    Agree (Rep .int) (.ofRes (IntVal.add (.fin m) (.fin v))) (some (m + v)) := by
  have := arith_agree .plus hm hv; exact this

theorem mulAssign_agree {m v : Int} (hm : inLL m) (hv : inLL v) :
    Agree (Rep .int) (.ofRes (IntVal.mulAssign (.fin m) (.fin v))) (some (m * v)) := by
  have h := arith_agree .mult hm hv
  have e : IntVal.mulAssign (.fin m) (.fin v) = IntVal.mul (.fin m) (.fin v) := rfl
  rw [e]; exact h

theorem foldl_mul (vs : List Int) (m : Int) : vs.foldl (· * ·) m = m * vs.prod := by
  induction vs generalizing m with
  | nil => simp
  | cons v vs ih => simp [ih, Int.mul_assoc]

theorem foldl_add (vs : List Int) (m : Int) : vs.foldl (· + ·) m = m + vs.sum := by
  induction vs generalizing m with
  | nil => simp
  | cons v vs ih => simp [ih, Int.add_assoc]

/-- The least position of the best value of a list, found by the loop. -/
theorem argLoop_agree {better : Int → Int → Bool} {ext : Int → Int → Int}
    (h1 : ∀ v m, better v m = true → ext m v = v ∧ v ≠ m)
    (h2 : ∀ v m, better v m = false → ext m v = m)
    (h5 : ∀ a b c, better a b = true → better b c = true → better a c = true)
    {xs : List (Unit → Out Int)} {os : List (Option Int)} (h : Elems .int xs os) :
    ∀ (pre : List Int) (m : Int) (mi i : Nat), i = pre.length → m ∈ pre →
      mi = pre.idxOf m → (∀ x ∈ pre, better x m = false) → inLL m →
      Agree (fun (r : Nat) (vs : List Int) => r = (pre ++ vs).idxOf (vs.foldl ext m))
        (argLoop better i m mi xs) (allSome os) := by
  induction h with
  | nil =>
    intro pre m mi i _ _ hmi _ _
    exact ⟨[], rfl, by simpa using hmi⟩
  | @cons x o xs os hx _ ih =>
    intro pre m mi i hi hm hmi hb hll
    simp only [argLoop]
    cases hxe : x () with
    | val v =>
      rw [hxe] at hx
      obtain ⟨d, rfl, rfl, hd⟩ := hx
      show Agree _ (if better v m then _ else _) _
      by_cases hbt : better v m = true
      · rw [if_pos hbt]
        obtain ⟨e1, e2⟩ := h1 v m hbt
        have hnot : v ∉ pre := by
          intro hv; have := hb v hv; rw [hbt] at this; simp at this
        have := ih (pre ++ [v]) v i (i + 1) (by simp [hi]) (by simp)
          (by rw [List.idxOf_append_of_notMem hnot]; simp [hi]) (by
            intro y hy
            rcases List.mem_append.1 hy with hy | hy
            · by_contra hc
              have hc : better y v = true := by simpa using hc
              have := h5 _ _ _ hc hbt
              rw [hb y hy] at this; simp at this
            · simp at hy; subst hy
              by_contra hc
              have hc : better y y = true := by simpa using hc
              exact (h1 y y hc).2 rfl) hd
        cases ho : argLoop better (i + 1) v i xs with
        | val r =>
          rw [ho] at this
          obtain ⟨vs, h8, h9⟩ := this
          refine ⟨v :: vs, by simp [allSome, h8], ?_⟩
          rw [h9]; simp [e1]
        | undef => rw [ho] at this; have this : allSome os = none := this; simp [Agree, allSome, this]
        | err => trivial
        | ub => trivial
      · rw [if_neg hbt]
        have hbt : better v m = false := by simpa using hbt
        have e1 := h2 v m hbt
        have := ih (pre ++ [v]) m mi (i + 1) (by simp [hi]) (by simp [hm])
          (by rw [List.idxOf_append_of_mem hm]; exact hmi) (by
            intro y hy
            rcases List.mem_append.1 hy with hy | hy
            · exact hb y hy
            · simp at hy; subst hy; exact hbt) hll
        cases ho : argLoop better (i + 1) m mi xs with
        | val r =>
          rw [ho] at this
          obtain ⟨vs, h8, h9⟩ := this
          refine ⟨v :: vs, by simp [allSome, h8], ?_⟩
          rw [h9]; simp [e1]
        | undef => rw [ho] at this; have this : allSome os = none := this; simp [Agree, allSome, this]
        | err => trivial
        | ub => trivial
    | undef =>
      rw [hxe] at hx
      have hx : o = none := hx
      subst hx; rfl
    | err => trivial
    | ub => trivial

theorem inLL_0 : inLL 0 := by decide
theorem inLL_1 : inLL 1 := by decide

theorem addPos_agree (x y : Int) :
    Agree (Rep .int) (.ofRes (IntVal.add (.fin x) (.fin y))) (some (x + y)) := by
  have hll : ∀ z w, ll z = .ok w → w = z ∧ inLL z := fun z w h => ll_eq_ok h
  have key : ∀ r, safePlus x y = .ok r → r = x + y ∧ inLL (x + y) := by
    intro r h
    unfold safePlus at h
    split at h
    · cases h1 : ll (LMIN - x) with
      | ok t =>
        rw [h1] at h
        simp only [Res.ok_bind] at h
        split at h
        · simp at h
        · exact hll _ _ h
      | err => rw [h1] at h; simp at h
      | ub => rw [h1] at h; simp at h
    · cases h1 : ll (LMAX - x) with
      | ok t =>
        rw [h1] at h
        simp only [Res.ok_bind] at h
        split at h
        · simp at h
        · exact hll _ _ h
      | err => rw [h1] at h; simp at h
      | ub => rw [h1] at h; simp at h
  have e : IntVal.add (.fin x) (.fin y) = IntVal.fin <$> safePlus x y := rfl
  rw [e]
  cases h : safePlus x y with
  | ok r => obtain ⟨h1, h2⟩ := key r h; exact ⟨_, rfl, h1, h2⟩
  | err => trivial
  | ub => trivial

/-- The aggregations of arrays of integers. -/
theorem iagg_agree (op : IAgg) {lo : Int} {xs : List (Unit → Out Int)}
    {os : List (Option Int)} (h : Elems .int xs os) :
    Agree (Rep .int) (iagg op lo xs) (allSome os >>= mathIAgg op lo) := by
  have hbind : ∀ (o : Option (List Int)) (k : List Int → Int),
      (o >>= fun vs => some (k vs)) = o.map k := by
    intro o k; cases o <;> rfl
  cases op with
  | sum =>
    have := foldO_agree (g := (· + ·)) (fun m v hm hv => add_agree hm hv) h 0 inLL_0
    simp only [foldl_add, Int.zero_add] at this
    rw [show (allSome os >>= mathIAgg .sum lo) = (allSome os).map List.sum from hbind _ _]; exact this
  | product =>
    have := foldO_agree (g := (· * ·)) (fun m v hm hv => mulAssign_agree hm hv) h 1 inLL_1
    simp only [foldl_mul, Int.one_mul] at this
    rw [show (allSome os >>= mathIAgg .product lo) = (allSome os).map List.prod from hbind _ _]
    exact this
  | min =>
    cases h with
    | nil => rfl
    | @cons x o xs os hx h =>
      simp only [iagg]
      cases hxe : x () with
      | val v =>
        rw [hxe] at hx
        obtain ⟨d, rfl, rfl, hd⟩ := hx
        have := foldO_agree (f := fun m v => .val (IntVal.min (.fin m) (.fin v)).v) (g := min)
          (fun m v hm hv => ⟨_, rfl, min_eq m v, by unfold inLL at *; omega⟩) h v hd
        show Agree (Rep .int) (foldO _ v xs) _
        have e : (allSome (some v :: os) >>= mathIAgg .min lo) =
            (allSome os).map (fun vs => vs.foldl min v) := by
          simp only [allSome]; cases allSome os <;> rfl
        rw [e]; exact this
      | undef => rw [hxe] at hx; have hx : o = none := hx; subst hx; rfl
      | err => trivial
      | ub => trivial
  | max =>
    cases h with
    | nil => rfl
    | @cons x o xs os hx h =>
      simp only [iagg]
      cases hxe : x () with
      | val v =>
        rw [hxe] at hx
        obtain ⟨d, rfl, rfl, hd⟩ := hx
        have := foldO_agree (f := fun m v => .val (IntVal.max (.fin m) (.fin v)).v) (g := max)
          (fun m v hm hv => ⟨_, rfl, max_eq m v, by unfold inLL at *; omega⟩) h v hd
        show Agree (Rep .int) (foldO _ v xs) _
        have e : (allSome (some v :: os) >>= mathIAgg .max lo) =
            (allSome os).map (fun vs => vs.foldl max v) := by
          simp only [allSome]; cases allSome os <;> rfl
        rw [e]; exact this
      | undef => rw [hxe] at hx; have hx : o = none := hx; subst hx; rfl
      | err => trivial
      | ub => trivial
  | argMin =>
    cases h with
    | nil => rfl
    | @cons x o xs os hx h =>
      simp only [iagg]
      cases hxe : x () with
      | val v =>
        rw [hxe] at hx
        obtain ⟨d, rfl, rfl, hd⟩ := hx
        have := argLoop_agree (better := fun v m => IntVal.lt (.fin v) (.fin m)) (ext := min)
          (fun v m hb => by have := (lt_fin v m).1 hb; omega)
          (fun v m hb => by
            have : ¬ v < m := fun h => by
              have := (lt_fin v m).2 h; rw [hb] at this; simp at this
            omega)
          (fun a b c hab hbc => (lt_fin a c).2 (lt_trans ((lt_fin a b).1 hab) ((lt_fin b c).1 hbc)))
          h [v] v 0 1 rfl (by simp) (by simp) (by
            intro y hy; simp at hy; subst hy
            by_contra hc
            exact lt_irrefl _ ((lt_fin y y).1 (by simpa using hc))) hd
        show Agree (Rep .int) (argLoop _ 1 v 0 xs >>= fun i => _) _
        have e : (allSome (some v :: os) >>= mathIAgg .argMin lo) =
            (allSome os) >>= (fun vs => some (lo + (([v] ++ vs).idxOf (vs.foldl min v) : Nat))) := by
          simp only [allSome]; cases allSome os <;> rfl
        rw [e]
        refine Agree.bind this ?_
        rintro r vs rfl
        rw [Int.add_comm]
        exact addPos_agree _ _
      | undef => rw [hxe] at hx; have hx : o = none := hx; subst hx; rfl
      | err => trivial
      | ub => trivial
  | argMax =>
    cases h with
    | nil => rfl
    | @cons x o xs os hx h =>
      simp only [iagg]
      cases hxe : x () with
      | val v =>
        rw [hxe] at hx
        obtain ⟨d, rfl, rfl, hd⟩ := hx
        have := argLoop_agree (better := fun v m => IntVal.gt (.fin v) (.fin m)) (ext := max)
          (fun v m hb => by have := (lt_fin m v).1 hb; omega)
          (fun v m hb => by
            have : ¬ m < v := fun h => by
              have := (lt_fin m v).2 h; rw [show IntVal.lt (.fin m) (.fin v) = IntVal.gt (.fin v) (.fin m) from rfl] at this; rw [hb] at this; simp at this
            omega)
          (fun a b c hab hbc => (lt_fin c a).2 (lt_trans ((lt_fin c b).1 hbc) ((lt_fin b a).1 hab)))
          h [v] v 0 1 rfl (by simp) (by simp) (by
            intro y hy; simp at hy; subst hy
            by_contra hc
            exact lt_irrefl _ ((lt_fin y y).1 (by simpa [IntVal.gt] using hc))) hd
        show Agree (Rep .int) (argLoop _ 1 v 0 xs >>= fun i => _) _
        have e : (allSome (some v :: os) >>= mathIAgg .argMax lo) =
            (allSome os) >>= (fun vs => some (lo + (([v] ++ vs).idxOf (vs.foldl max v) : Nat))) := by
          simp only [allSome]; cases allSome os <;> rfl
        rw [e]
        refine Agree.bind this ?_
        rintro r vs rfl
        rw [Int.add_comm]
        exact addPos_agree _ _
      | undef => rw [hxe] at hx; have hx : o = none := hx; subst hx; rfl
      | err => trivial
      | ub => trivial

/-! ## Arrays of Booleans -/

theorem elems_bool {xs : List (Unit → Out Bool)} {os : List (Option Bool)} (h : Elems .bool xs os)
    (hs : ∀ o ∈ os, ∃ d, o = some d) :
    ∃ ds, os = ds.map some ∧
      List.Forall₂ (fun (t : Unit → Out Bool) d => Agree (Rep .bool) (t ()) (some d)) xs ds := by
  induction h with
  | nil => exact ⟨[], rfl, .nil⟩
  | @cons x o xs os hx _ ih =>
    obtain ⟨ds, rfl, h2⟩ := ih (fun o ho => hs o (by simp [ho]))
    obtain ⟨d, rfl⟩ := hs o (by simp)
    exact ⟨d :: ds, rfl, .cons hx h2⟩

theorem scan_agree (stop : Bool) {xs : List (Unit → Out Bool)} {ds : List Bool}
    (h : List.Forall₂ (fun (t : Unit → Out Bool) d => Agree (Rep .bool) (t ()) (some d)) xs ds) :
    Agree (Rep .bool) (scan stop xs) (some (decide (stop ∈ ds))) := by
  induction h with
  | nil => exact ⟨false, by simp, rfl⟩
  | @cons x d xs ds hx _ ih =>
    simp only [scan]
    cases hxe : x () with
    | val v =>
      rw [hxe] at hx
      obtain ⟨d', h1, h2⟩ := hx
      simp only [Option.some.injEq] at h1; subst h1
      have h2 : v = d := h2
      subst h2
      show Agree (Rep .bool) (if v == stop then _ else _) _
      by_cases hv : v = stop
      · subst hv; simp only [beq_self_eq_true, if_true]; exact ⟨true, by simp, rfl⟩
      · have : (v == stop) = false := by simpa using hv
        rw [this]
        simp only [Bool.false_eq_true, if_false]
        have e : decide (stop ∈ v :: ds) = decide (stop ∈ ds) := by
          simp only [List.mem_cons]; congr 1; simp [Ne.symm hv]
        rw [e]; exact ih
    | undef => rw [hxe] at hx; simp [Agree] at hx
    | err => trivial
    | ub => trivial

theorem count_agree {xs : List (Unit → Out Bool)} {ds : List Bool}
    (h : List.Forall₂ (fun (t : Unit → Out Bool) d => Agree (Rep .bool) (t ()) (some d)) xs ds) :
    Agree (fun (n m : Nat) => n = m) (count xs) (some (ds.count true)) := by
  induction h with
  | nil => exact ⟨0, by simp, rfl⟩
  | @cons x d xs ds hx _ ih =>
    simp only [count]
    cases hxe : x () with
    | val v =>
      rw [hxe] at hx
      obtain ⟨d', h1, h2⟩ := hx
      simp only [Option.some.injEq] at h1; subst h1
      have h2 : v = d := h2
      subst h2
      show Agree _ (count xs >>= fun c => _) _
      cases hc : count xs with
      | val c =>
        rw [hc] at ih
        obtain ⟨m, h3, h4⟩ := ih
        simp only [Option.some.injEq] at h3
        refine ⟨_, rfl, ?_⟩
        show v.toNat + c = _
        rw [h4, ← h3]
        cases v <;> simp
        omega
      | undef => rw [hc] at ih; simp [Agree] at ih
      | err => trivial
      | ub => trivial
    | undef => rw [hxe] at hx; simp [Agree] at hx
    | err => trivial
    | ub => trivial

theorem xor_count (ds : List Bool) : ds.foldr xor false = (ds.count true % 2 == 1) := by
  induction ds with
  | nil => rfl
  | cons d ds ih =>
    rw [List.foldr_cons, ih]
    cases d
    · simp
    · simp only [List.count_cons_self]
      rcases Nat.mod_two_eq_zero_or_one (ds.count true) with h | h
      · rw [show (ds.count true + 1) % 2 = 1 by omega, h]; rfl
      · rw [show (ds.count true + 1) % 2 = 0 by omega, h]; rfl

theorem bagg_agree (op : BAgg) {xs : List (Unit → Out Bool)} {ds : List Bool}
    (h : List.Forall₂ (fun (t : Unit → Out Bool) d => Agree (Rep .bool) (t ()) (some d)) xs ds) :
    Agree (Rep .bool) (bagg op xs) (some (mathBAgg op ds)) := by
  have hr := List.rel_reverse h
  have hc : ds.reverse.count true = ds.count true := List.count_reverse
  cases op with
  | all =>
    have e : some (mathBAgg .all ds) = (some (decide (false ∈ ds.reverse)) >>= fun b => some (!b)) := by
      simp only [mathBAgg, Option.bind_eq_bind, Option.bind_some, Option.some.injEq, List.mem_reverse]
      rw [Bool.eq_iff_iff]; simp
    rw [e]
    exact (scan_agree false hr).bind (fun a x hax => ⟨_, rfl, congrArg _ hax⟩)
  | any =>
    have e : mathBAgg .any ds = decide (true ∈ ds.reverse) := by
      simp only [mathBAgg, List.mem_reverse]; rw [Bool.eq_iff_iff]; simp
    rw [e]; exact scan_agree true hr
  | xorall =>
    have e : some (mathBAgg .xorall ds) =
        (some (ds.reverse.count true) >>= fun c => some (c % 2 == 1)) := by
      simp [mathBAgg, xor_count]
    rw [e]
    exact (count_agree hr).bind (fun a x hax => ⟨_, rfl, by subst hax; rfl⟩)
  | iffall =>
    have e : some (mathBAgg .iffall ds) =
        (some (ds.reverse.count true) >>= fun c => some (c % 2 == 0)) := by
      simp only [mathBAgg, xor_count, hc, Option.bind_eq_bind, Option.bind_some, Option.some.injEq]
      rcases Nat.mod_two_eq_zero_or_one (ds.count true) with h | h <;> rw [h] <;> rfl
    rw [e]
    exact (count_agree hr).bind (fun a x hax => ⟨_, rfl, by subst hax; rfl⟩)

theorem bop_agree (op : BOp) {l r : Unit → Out Bool} {a b : Bool}
    (hl : Agree (Rep .bool) (l ()) (some a)) (hr : Agree (Rep .bool) (r ()) (some b)) :
    Agree (Rep .bool) (bop op l r) (some (mathBop op a b)) := by
  have hl' : l () = .val a ∨ l () = .err ∨ l () = .ub := by
    cases h : l () with
    | val v => rw [h] at hl; obtain ⟨x, h1, h2⟩ := hl; cases h1; left; rw [show v = a from h2]
    | undef => rw [h] at hl; simp [Agree] at hl
    | err => simp
    | ub => simp
  have hr' : r () = .val b ∨ r () = .err ∨ r () = .ub := by
    cases h : r () with
    | val v => rw [h] at hr; obtain ⟨x, h1, h2⟩ := hr; cases h1; left; rw [show v = b from h2]
    | undef => rw [h] at hr; simp [Agree] at hr
    | err => simp
    | ub => simp
  rcases hl' with h1 | h1 | h1 <;> rcases hr' with h2 | h2 | h2 <;> cases op <;> cases a <;> cases b <;>
    simp only [bop, h1, h2] <;> first | trivial | exact ⟨_, rfl, rfl⟩

/-! ## Loops of comprehensions -/

theorem loopSet_agree {b : Base} {k : Int → Out (List (Val b))} {k' : Int → Option (List (DVal b))} :
    ∀ (vs : List Int), (∀ v ∈ vs, Agree (List.Forall₂ (Rep b)) (k v) (k' v)) →
    Agree (List.Forall₂ (Rep b)) (loopSet vs k) (forEach vs k')
  | [], _ => ⟨[], rfl, .nil⟩
  | v :: vs, h => by
    simp only [loopSet]
    have h1 := h v (by simp)
    have ih := loopSet_agree vs (fun v' hv' => h v' (by simp [hv']))
    cases hk : k v with
    | val xs =>
      rw [hk] at h1
      obtain ⟨ds, e1, h2⟩ := h1
      show Agree _ (Out.ofRes (IntVal.incr (.fin v)) >>= fun _ => _) _
      cases hinc : Out.ofRes (IntVal.incr (.fin v)) with
      | val _ =>
        show Agree _ (loopSet vs k >>= fun _ => _) _
        cases hl : loopSet vs k with
        | val ys =>
          rw [hl] at ih
          obtain ⟨es, e3, h4⟩ := ih
          simp only [forEach, Option.map_eq_some_iff] at e3
          obtain ⟨ls, e5, rfl⟩ := e3
          refine ⟨ds ++ ls.flatten, ?_, List.rel_append h2 h4⟩
          simp [forEach, e1, allSome, e5]
        | undef =>
          rw [hl] at ih
          have ih : forEach vs k' = none := ih
          simp only [forEach, Option.map_eq_none_iff] at ih
          show forEach (v :: vs) k' = none
          simp [forEach, e1, allSome, ih]
        | err => trivial
        | ub => trivial
      | undef => cases hi : IntVal.incr (.fin v) <;> rw [hi] at hinc <;> simp [Out.ofRes] at hinc
      | err => trivial
      | ub => trivial
    | undef =>
      rw [hk] at h1
      have h1 : k' v = none := h1
      show forEach (v :: vs) k' = none
      simp [forEach, h1, allSome]
    | err => trivial
    | ub => trivial

theorem loopArr_agree {b c : Base} {k : Val c → Out (List (Val b))}
    {k' : DVal c → Option (List (DVal b))} {vs : List (Val c)} {ds : List (DVal c)}
    (hv : List.Forall₂ (Rep c) vs ds)
    (h : ∀ v d, Rep c v d → Agree (List.Forall₂ (Rep b)) (k v) (k' d)) :
    Agree (List.Forall₂ (Rep b)) (loopArr vs k) (forEach ds k') := by
  induction hv with
  | nil => exact ⟨[], rfl, .nil⟩
  | @cons v d vs ds hvd _ ih =>
    simp only [loopArr]
    have h1 := h v d hvd
    cases hk : k v with
    | val xs =>
      rw [hk] at h1
      obtain ⟨ds', e1, h2⟩ := h1
      show Agree _ (loopArr vs k >>= fun _ => _) _
      cases hl : loopArr vs k with
      | val ys =>
        rw [hl] at ih
        obtain ⟨es, e3, h4⟩ := ih
        simp only [forEach, Option.map_eq_some_iff] at e3
        obtain ⟨ls, e5, rfl⟩ := e3
        refine ⟨ds' ++ ls.flatten, ?_, List.rel_append h2 h4⟩
        simp [forEach, e1, allSome, e5]
      | undef =>
        rw [hl] at ih
        have ih : forEach ds k' = none := ih
        simp only [forEach, Option.map_eq_none_iff] at ih
        show forEach (d :: ds) k' = none
        simp [forEach, e1, allSome, ih]
      | err => trivial
      | ub => trivial
    | undef =>
      rw [hk] at h1
      have h1 : k' d = none := h1
      show forEach (d :: ds) k' = none
      simp [forEach, h1, allSome]
    | err => trivial
    | ub => trivial

theorem idsSet_agree {b : Base} {s : List Range} {A : Finset Int} (hs : Rep .set s A)
    {k : Env → Out (List (Val b))} {k' : DEnv → Option (List (DVal b))}
    (h : ∀ env denv, EnvRep env denv → Agree (List.Forall₂ (Rep b)) (k env) (k' denv)) :
    ∀ (ns : List Nat) (env : Env) (denv : DEnv), EnvRep env denv →
      Agree (List.Forall₂ (Rep b)) (idsSet s ns env k)
        (forIds (b := .int) (A.sort (· ≤ ·)) ns denv k')
  | [], env, denv, he => h env denv he
  | n :: ns, env, denv, he => by
    simp only [idsSet, forIds]
    have hc := card_agree hs
    cases hce : card s with
    | val c =>
      show Agree _ (loopSet (setVals s) _) _
      rw [setVals_rep hs]
      refine loopSet_agree _ (fun v hv => ?_)
      have hv : v ∈ A := (Finset.mem_sort _).1 hv
      exact idsSet_agree hs h ns _ _ (he.set (b := .int) (n := n) ⟨rfl, hs.2.2 v hv⟩)
    | undef => rw [hce] at hc; simp [Agree] at hc
    | err => trivial
    | ub => trivial

theorem idsArr_agree {b c : Base} {vs : List (Val c)} {ds : List (DVal c)}
    (hv : List.Forall₂ (Rep c) vs ds)
    {k : Env → Out (List (Val b))} {k' : DEnv → Option (List (DVal b))}
    (h : ∀ env denv, EnvRep env denv → Agree (List.Forall₂ (Rep b)) (k env) (k' denv)) :
    ∀ (ns : List Nat) (env : Env) (denv : DEnv), EnvRep env denv →
      Agree (List.Forall₂ (Rep b)) (idsArr vs ns env k) (forIds ds ns denv k')
  | [], env, denv, he => h env denv he
  | n :: ns, env, denv, he => by
    simp only [idsArr, forIds]
    exact loopArr_agree hv (fun v d hvd => idsArr_agree hv h ns _ _ (he.set hvd))

end Eval
end MZ
