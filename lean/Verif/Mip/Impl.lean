import Verif.Mip.Flags

/-! # The reified constraints -/

namespace MZ.Mip

/-! ## Equality encodings -/

/-- The entries of an equality encoding are variables or 0. -/
def EncArgs (enc : Option (Int × List Arg)) : Prop := ∀ e ∈ enc, ∀ a ∈ e.2, (∃ x, a = .var x) ∨ a = .const 0

theorem upTo_succ {a b : Int} (h : a ≤ b) : upTo a b = a :: upTo (a + 1) b := by
  unfold upTo
  obtain ⟨n, hn⟩ : ∃ n : Nat, (b + 1 - a).toNat = n + 1 := ⟨(b - a).toNat, by omega⟩
  rw [hn, List.range_succ_eq_map, List.map_cons, List.map_map, show (b + 1 - (a + 1)).toNat = n by omega]
  congr 1
  · simp
  · refine List.map_congr_left fun k _ => ?_
    simp only [Function.comp_apply]; push_cast; omega

theorem upTo_nil {a b : Int} (h : b < a) : upTo a b = [] := by
  unfold upTo; rw [show (b + 1 - a).toNat = 0 by omega]; rfl

theorem enc_val {ref : Nat} {iMin : Int} {pp : List Arg} {σ z : Nat → Int} (he : EncHolds ref (some (iMin, pp)) σ)
    (ha : EncArgs (some (iMin, pp))) {v : Int} (h1 : iMin ≤ v) (h2 : v < iMin + pp.length) :
    ∃ a, pp[(v - iMin).toNat]? = some a ∧ a.val σ z = if σ ref = v then 1 else 0 := by
  have hk : (v - iMin).toNat < pp.length := by omega
  refine ⟨_, List.getElem?_eq_getElem hk, ?_⟩
  have := (he _ rfl).1 _ hk
  rw [show iMin + (((v - iMin).toNat : Nat) : Int) = v by omega] at this
  rw [← this]
  rcases ha _ rfl _ (List.getElem_mem hk) with ⟨x, hx⟩ | hx
  · show Arg.val σ z (pp[(v - iMin).toNat]) = Arg.val σ _ (pp[(v - iMin).toNat])
    rw [show pp[(v - iMin).toNat] = Arg.var x from hx]; rfl
  · show Arg.val σ z (pp[(v - iMin).toNat]) = Arg.val σ _ (pp[(v - iMin).toNat])
    rw [show pp[(v - iMin).toNat] = Arg.const 0 from hx]; rfl

theorem enc_sum {ref : Nat} {iMin : Int} {pp : List Arg} {σ z : Nat → Int} (he : EncHolds ref (some (iMin, pp)) σ)
    (ha : EncArgs (some (iMin, pp))) (n : Nat) : ∀ lo hi : Int, (hi + 1 - lo).toNat = n → iMin ≤ lo → hi < iMin + pp.length →
    (((upTo lo hi).filterMap fun v => pp[(v - iMin).toNat]?).map (Arg.val σ z)).sum =
      if lo ≤ σ ref ∧ σ ref ≤ hi then 1 else 0 := by
  induction n with
  | zero => intro lo hi hn _ _; rw [upTo_nil (by omega), if_neg (by omega)]; rfl
  | succ n ih =>
    intro lo hi hn h1 h2
    obtain ⟨a, hp, hv⟩ := enc_val (z := z) he ha h1 (by omega)
    rw [upTo_succ (by omega), List.filterMap_cons, hp]
    dsimp only
    rw [List.map_cons, List.sum_cons, hv, ih (lo + 1) hi (by omega) (by omega) h2]
    by_cases hr : σ ref = lo
    · rw [if_pos hr, if_neg (by omega), if_pos (by omega)]; rfl
    · rw [if_neg hr]
      by_cases h3 : lo + 1 ≤ σ ref ∧ σ ref ≤ hi
      · rw [if_pos h3, if_pos (by omega)]; rfl
      · rw [if_neg h3, if_neg (by omega)]; rfl

open Classical in
theorem encFlags_spec {ref : Nat} {iMin : Int} {pp : List Arg} {σ z : Nat → Int} (he : EncHolds ref (some (iMin, pp)) σ)
    (ha : EncArgs (some (iMin, pp))) (e : Intv) (hl : e.left ≠ ⊤) (hr : e.right ≠ ⊥) :
    ((encFlags iMin pp e).map (Arg.val σ z)).sum = if e.has (σ ref) then 1 else 0 := by
  have hb := (he _ rfl).2
  dsimp only at hb
  have key : ∀ lo hi : Int, iMin ≤ lo → hi < iMin + pp.length → ((lo ≤ σ ref ∧ σ ref ≤ hi) ↔ e.has (σ ref)) →
      (((upTo lo hi).filterMap fun v => pp[(v - iMin).toNat]?).map (Arg.val σ z)).sum = if e.has (σ ref) then 1 else 0 := by
    intro lo hi h1 h2 h3
    rw [enc_sum he ha _ lo hi rfl h1 h2]
    by_cases h : e.has (σ ref)
    · rw [if_pos h, if_pos (h3.mpr h)]
    · rw [if_neg h, if_neg (fun h' => h (h3.mp h'))]
  obtain ⟨l, r⟩ := e
  dsimp only at hl hr
  unfold encFlags
  dsimp only
  rcases E_cases l with rfl | rfl | ⟨a, rfl⟩
  · rcases E_cases r with rfl | rfl | ⟨b, rfl⟩
    · exact absurd rfl hr
    · refine key iMin (iMin + pp.length - 1) (by omega) (by omega) ?_
      unfold Intv.has
      simp only [bot_le, le_top, and_self, iff_true]; omega
    · refine key iMin (min (iMin + pp.length - 1) ⌊b⌋) (by omega) (by omega) ?_
      unfold Intv.has
      rw [fin_le, ← Int.le_floor]
      simp only [bot_le, true_and]; omega
  · exact absurd rfl hl
  · rcases E_cases r with rfl | rfl | ⟨b, rfl⟩
    · exact absurd rfl hr
    · refine key (max iMin ⌈a⌉) (iMin + pp.length - 1) (by omega) (by omega) ?_
      unfold Intv.has
      rw [fin_le, ← Int.ceil_le]
      simp only [le_top, and_true]; omega
    · refine key (max iMin ⌈a⌉) (min (iMin + pp.length - 1) ⌊b⌋) (by omega) (by omega) ?_
      unfold Intv.has
      rw [fin_le, fin_le, ← Int.ceil_le, ← Int.le_floor]; omega

/-! ## `relateReifFlag` -/

/-- The flags collected for one interval. -/
def collect (enc : Option (Int × List Arg)) (flags : Bool) (s : List Intv) (e : Intv) : Option (List Arg) :=
  match enc with
  | some (iMin, pp) => some (encFlags iMin pp e)
  | none => intvFlags flags s e

open Classical in
/-- The collected flags have the sum 1 for an interval that contains `r`, and 0 for the others. -/
def Collects (enc : Option (Int × List Arg)) (flags : Bool) (s : List Intv) (σ z : Nat → Int) (r : ℤ) : Prop :=
  ∀ e args, e.left ≠ ⊤ → e.right ≠ ⊥ → collect enc flags s e = some args →
    (args.map (Arg.val σ z)).sum = if e.has r then 1 else 0

open Classical in
theorem mem_count {r : ℤ} {SS : List Intv} (h : SS.Pairwise (fun a b => a.right < b.left)) :
    (SS.map fun e => if e.has r then (1 : Int) else 0).sum = if Mem SS r then 1 else 0 := by
  induction SS with
  | nil => rw [if_neg (by simp [Mem])]; rfl
  | cons e t ih =>
    rw [List.pairwise_cons] at h
    rw [List.map_cons, List.sum_cons, ih h.2]
    by_cases he : e.has r
    · rw [if_pos he, if_pos (show Mem (e :: t) r from ⟨e, by simp, he⟩), if_neg]
      · rfl
      · rintro ⟨f, hf, hx⟩
        exact absurd ((h.1 f hf).trans_le (hx.1.trans he.2)) (lt_irrefl _)
    · rw [if_neg he, Int.zero_add]
      by_cases ht : Mem t r
      · rw [if_pos ht, if_pos]
        obtain ⟨f, hf, hx⟩ := ht
        exact ⟨f, by simp [hf], hx⟩
      · rw [if_neg ht, if_neg]
        rintro ⟨f, hf, hx⟩
        rcases List.mem_cons.mp hf with rfl | hf
        · exact he hx
        · exact ht ⟨f, hf, hx⟩

/-- The arguments that `relateReifFlag` collects. -/
def collectAll (enc : Option (Int × List Arg)) (flags : Bool) (s : List Intv) (SS : List Intv) : Option (List Arg) :=
  match enc with
  | some (iMin, pp) => some (SS.flatMap (encFlags iMin pp))
  | none => (SS.mapM (intvFlags flags s)).map List.flatten

theorem collectAll_cons (enc : Option (Int × List Arg)) (flags : Bool) (s : List Intv) (e : Intv) (SS : List Intv)
    {args : List Arg} : collectAll enc flags s (e :: SS) = some args ↔
      ∃ a b, collect enc flags s e = some a ∧ collectAll enc flags s SS = some b ∧ args = a ++ b := by
  unfold collectAll collect
  cases enc with
  | some en =>
    obtain ⟨iMin, pp⟩ := en
    dsimp only
    simp only [Option.some.injEq, List.flatMap_cons]
    constructor
    · intro h; exact ⟨_, _, rfl, rfl, h.symm⟩
    · rintro ⟨a, b, rfl, rfl, rfl⟩; rfl
  | none =>
    dsimp only
    rw [List.mapM_cons]
    cases h1 : intvFlags flags s e with
    | none => simp
    | some a =>
      cases h2 : SS.mapM (intvFlags flags s) with
      | none => simp
      | some b =>
        simp only [Option.pure_def, Option.bind_eq_bind, Option.bind_some, Option.map_some, Option.some.injEq, List.flatten_cons]
        constructor
        · intro h; exact ⟨a, b.flatten, rfl, rfl, h.symm⟩
        · rintro ⟨a', b', rfl, rfl, rfl⟩; rfl

open Classical in
theorem collectAll_sum {enc : Option (Int × List Arg)} {flags : Bool} {s : List Intv} {σ z : Nat → Int} {r : ℤ}
    (hc : Collects enc flags s σ z r) (SS : List Intv) : (∀ e ∈ SS, e.left ≠ ⊤ ∧ e.right ≠ ⊥) → ∀ args,
    collectAll enc flags s SS = some args → (args.map (Arg.val σ z)).sum = (SS.map fun e => if e.has r then (1 : Int) else 0).sum := by
  induction SS with
  | nil =>
    intro _ args h
    have : args = [] := by
      unfold collectAll at h
      cases enc with
      | some en => simpa using h.symm
      | none => simpa using h.symm
    rw [this]; rfl
  | cons e t ih =>
    intro hE args h
    obtain ⟨a, b, h1, h2, rfl⟩ := (collectAll_cons enc flags s e t).mp h
    rw [List.map_append, List.sum_append, List.map_cons, List.sum_cons, ih (fun f hf => hE f (by simp [hf])) b h2,
      hc e a (hE e (by simp)).1 (hE e (by simp)).2 h1]

/-- The domain of a flag. -/
def FlagDom (dom : Doms) (f : Nat) : Prop := dom f = some [⟨some 0, some 1⟩] ∨ dom f = some [⟨some 0, some 0⟩]

theorem inSet_range (a b v : Int) : InSet [⟨some a, some b⟩] v ↔ a ≤ v ∧ v ≤ b := by
  simp [InSet, IRange.has]

theorem sat_setZero {dom : Doms} {f : Nat} (h : FlagDom dom f) (σ : Nat → Int) :
    (setVarDomain dom f 0 0).Sat σ ↔ dom.Sat σ ∧ σ f = 0 := by
  unfold Doms.Sat setVarDomain
  constructor
  · intro hs
    have h0 : σ f = 0 := by
      have := hs f _ (by rw [if_pos rfl]; rfl)
      rw [inSet_range] at this; omega
    refine ⟨fun x S hS => ?_, h0⟩
    by_cases hx : x = f
    · subst hx
      rw [Option.mem_def] at hS
      rcases h with h | h <;> rw [h] at hS <;> rw [← Option.some.inj hS, inSet_range] <;> omega
    · exact hs x S (by rw [if_neg hx]; exact hS)
  · rintro ⟨hs, h0⟩ x S hS
    by_cases hx : x = f
    · subst hx
      rw [if_pos rfl, Option.mem_def] at hS
      rw [← Option.some.inj hS, inSet_range]; omega
    · rw [if_neg hx] at hS; exact hs x S hS

theorem flagDom_setZero {dom : Doms} {f g : Nat} (h : FlagDom dom g) : FlagDom (setVarDomain dom f 0 0) g := by
  unfold FlagDom setVarDomain at *
  by_cases hx : g = f
  · rw [if_pos hx]; exact .inr rfl
  · rw [if_neg hx]; exact h

theorem FlagDom.bool {dom : Doms} {f : Nat} (h : FlagDom dom f) {σ : Nat → Int} (hs : dom.Sat σ) : σ f = 0 ∨ σ f = 1 := by
  rcases h with h | h
  · have := hs f _ h; rw [inSet_range] at this; omega
  · have := hs f _ h; rw [inSet_range] at this; omega

/-- The domains and the linear constraints hold. -/
def StSat (st : Doms × List Lin) (σ z : Nat → Int) : Prop := st.1.Sat σ ∧ ∀ l ∈ st.2, l.Holds σ z

/-- The state of `implementPOSTs` only grows, and the domains of flags stay those of flags. -/
def Grows (st st' : Doms × List Lin) (F : Nat → Prop) : Prop :=
  (∀ σ, st'.1.Sat σ → st.1.Sat σ) ∧ (∀ l ∈ st.2, l ∈ st'.2) ∧ ∀ g, F g → FlagDom st'.1 g

theorem relate_eq (enc : Option (Int × List Arg)) (flags : Bool) (s : List Intv) (st : Doms × List Lin) (f : Nat)
    (SS : List Intv) : relateReifFlag enc flags s st f SS = (collectAll enc flags s SS).bind fun args =>
      if args = [] then some (setVarDomain st.1 f 0 0, st.2)
      else some (st.1, st.2 ++ [addLinConstr (args.map (fun a => (-1, a)) ++ [(1, .var f)]) true 0]) := by
  unfold relateReifFlag collectAll
  cases enc with
  | some e => rfl
  | none => rfl

theorem relate_grows {enc : Option (Int × List Arg)} {flags : Bool} {s : List Intv} {st st' : Doms × List Lin} {f : Nat}
    {SS : List Intv} {F : Nat → Prop} (hF : ∀ g, F g → FlagDom st.1 g) (hf : F f)
    (h : relateReifFlag enc flags s st f SS = some st') : Grows st st' F := by
  rw [relate_eq] at h
  obtain ⟨args, -, h⟩ := Option.bind_eq_some_iff.mp h
  by_cases ha : args = []
  · rw [if_pos ha] at h
    rw [← Option.some.inj h]
    exact ⟨fun σ hs => ((sat_setZero (hF f hf) σ).mp hs).1, fun l hl => hl, fun g hg => flagDom_setZero (hF g hg)⟩
  · rw [if_neg ha] at h
    rw [← Option.some.inj h]
    exact ⟨fun σ hs => hs, fun l hl => List.mem_append_left _ hl, hF⟩

theorem reif_lin (args : List Arg) (f : Nat) (σ z : Nat → Int) :
    (addLinConstr (args.map (fun a => (-1, a)) ++ [(1, .var f)]) true 0).Holds σ z ↔ σ f = (args.map (Arg.val σ z)).sum := by
  unfold Lin.Holds
  rw [if_pos (by rfl), lin_sum, List.map_append, List.sum_append, List.map_map]
  have : (args.map ((fun t : ℚ × Arg => trunc t.1 * t.2.val σ z) ∘ fun a => ((-1 : ℚ), a))).sum = - (args.map (Arg.val σ z)).sum := by
    induction args with
    | nil => rfl
    | cons a t ih =>
      rw [List.map_cons, List.sum_cons, ih, List.map_cons, List.sum_cons]
      simp only [Function.comp_apply, trunc_neg_one]; omega
  rw [this]
  simp only [List.map_cons, List.map_nil, List.sum_cons, List.sum_nil, trunc_one, Arg.val]
  show _ = trunc 0 ↔ _
  rw [trunc_zero]; omega

/-- `relateReifFlag` says that the flag is 1 exactly if the value is in the set. -/
theorem relate_spec {enc : Option (Int × List Arg)} {flags : Bool} {s : List Intv} {σ z : Nat → Int} {r : ℤ}
    (hc : Collects enc flags s σ z r) {st st' : Doms × List Lin} {f : Nat} {SS : List Intv} (hf : FlagDom st.1 f)
    (hE : ∀ e ∈ SS, e.left ≠ ⊤ ∧ e.right ≠ ⊥) (hSS : SS.Pairwise (fun a b => a.right < b.left))
    (h : relateReifFlag enc flags s st f SS = some st') : StSat st' σ z ↔ StSat st σ z ∧ (σ f = 1 ↔ Mem SS r) := by
  classical
  rw [relate_eq] at h
  obtain ⟨args, hargs, h⟩ := Option.bind_eq_some_iff.mp h
  have hsum := collectAll_sum hc SS hE args hargs
  rw [mem_count hSS] at hsum
  have hb : ∀ hs : st.1.Sat σ, (σ f = (args.map (Arg.val σ z)).sum ↔ (σ f = 1 ↔ Mem SS r)) := by
    intro hs
    rw [hsum]
    have := hf.bool hs
    by_cases hm : Mem SS r
    · rw [if_pos hm]; simp [hm]
    · rw [if_neg hm]; simp only [hm, iff_false]; omega
  by_cases ha : args = []
  · rw [if_pos ha] at h
    rw [← Option.some.inj h]
    unfold StSat
    dsimp only
    rw [sat_setZero hf σ]
    subst ha
    constructor
    · rintro ⟨⟨h1, h2⟩, h3⟩; exact ⟨⟨h1, h3⟩, (hb h1).mp h2⟩
    · rintro ⟨⟨h1, h3⟩, h2⟩; exact ⟨⟨h1, (hb h1).mpr h2⟩, h3⟩
  · rw [if_neg ha] at h
    rw [← Option.some.inj h]
    unfold StSat
    dsimp only
    constructor
    · rintro ⟨h1, h2⟩
      exact ⟨⟨h1, fun l hl => h2 l (List.mem_append_left _ hl)⟩, (hb h1).mp ((reif_lin args f σ z).mp (h2 _ (by simp)))⟩
    · rintro ⟨⟨h1, h2⟩, h3⟩
      refine ⟨h1, fun l hl => ?_⟩
      rcases List.mem_append.mp hl with hl | hl
      · exact h2 l hl
      · rw [List.mem_singleton] at hl; subst hl
        exact (reif_lin args f σ z).mpr ((hb h1).mpr h3)

/-! ## `implementPOSTs` -/

theorem rndIfBothInt_eq {x : ℚ} (h : OnGrid x) : rndIfBothInt x = x := by
  unfold rndIfBothInt
  by_cases hx : |x - stdRound x| < eps
  · rw [if_pos hx]; exact ((stdRound_near' h).mp hx).symm
  · rw [if_neg hx]

/-- The intervals that `implementPOSTs` gives to `relateReifFlag`. -/
def targets (A B : ℚ) : Post → List Intv
  | .eqReif c _ => [⟨fin (rndIfBothInt (A * c + B)), fin (rndIfBothInt (A * c + B))⟩]
  | p => convertIntSet A B p.ranges

theorem convertIntSet_le {A B : ℚ} (hA : A ≠ 0) (c : ℤ) : convertIntSet A B [⟨none, some c⟩] =
    [if A < 0 then ⟨fin (rndUp (A * c + B)), ⊤⟩ else ⟨⊥, fin (rndDown (A * c + B))⟩] := by
  show insertI [] (convRange A B _) = _
  rcases lt_or_gt_of_ne hA with h | h
  · rw [if_pos h, convRange_neg h, mul_comm]
    exact insertI_nil_of_le le_top
  · rw [if_neg (not_lt.mpr h.le), convRange_pos h, mul_comm]
    exact insertI_nil_of_le bot_le

theorem convertIntSet_ge {A B : ℚ} (hA : A ≠ 0) (c : ℤ) : convertIntSet A B [⟨some c, none⟩] =
    [if A < 0 then ⟨⊥, fin (rndDown (A * c + B))⟩ else ⟨fin (rndUp (A * c + B)), ⊤⟩] := by
  show insertI [] (convRange A B _) = _
  rcases lt_or_gt_of_ne hA with h | h
  · rw [if_pos h, convRange_neg h, mul_comm]
    exact insertI_nil_of_le bot_le
  · rw [if_neg (not_lt.mpr h.le), convRange_pos h, mul_comm]
    exact insertI_nil_of_le le_top

theorem implementPost_eq {A B : ℚ} (hA : A ≠ 0) (enc : Option (Int × List Arg)) (flags : Bool) (s : List Intv)
    (st : Doms × List Lin) (p : Post) : implementPost enc flags s A B st p =
      match p.flag? with | none => some st | some f => relateReifFlag enc flags s st f (targets A B p) := by
  cases p with
  | ne c => rfl
  | setIn S => rfl
  | setInReif S f => rfl
  | eqReif c f => rfl
  | leReif c f => show relateReifFlag _ _ _ _ _ _ = relateReifFlag _ _ _ _ _ (convertIntSet A B [⟨none, some c⟩]); rw [convertIntSet_le hA]
  | geReif c f => show relateReifFlag _ _ _ _ _ _ = relateReifFlag _ _ _ _ _ (convertIntSet A B [⟨some c, none⟩]); rw [convertIntSet_ge hA]

theorem targets_ok {A B : ℚ} (hA : A ≠ 0) (hg : Grid A B) {p : Post} (hc : ∀ S ∈ p.set?, Canon S) :
    (∀ e ∈ targets A B p, e.left ≠ ⊤ ∧ e.right ≠ ⊥) ∧ (targets A B p).Pairwise (fun a b => a.right < b.left) := by
  have : (∀ e ∈ convertIntSet A B p.ranges, e.left ≠ ⊤ ∧ e.right ≠ ⊥) ∧
      (convertIntSet A B p.ranges).Pairwise (fun a b => a.right < b.left) :=
    ⟨fun e he => ⟨((convertIntSet_spec hA hg (canon_ranges hc)).1.1 e he).2.1,
      ((convertIntSet_spec hA hg (canon_ranges hc)).1.1 e he).2.2⟩, (convertIntSet_spec hA hg (canon_ranges hc)).1.2⟩
  cases p with
  | eqReif c f =>
    refine ⟨fun e he => ?_, by simp [targets]⟩
    rw [targets, List.mem_singleton] at he; subst he
    exact ⟨fin_ne_top _, fin_ne_bot _⟩
  | _ => exact this

theorem targets_mem {A B : ℚ} {r v : ℤ} (h : At A B r v) {p : Post} (hc : ∀ S ∈ p.set?, Canon S) {f : Nat}
    (hf : p.flag? = some f) (σ : Nat → Int) : p.Holds σ v ↔ (σ f = 1 ↔ Mem (targets A B p) r) := by
  have hm := convertIntSet_mem h (canon_ranges hc)
  cases p with
  | ne c => simp [Post.flag?] at hf
  | setIn S => simp [Post.flag?] at hf
  | setInReif S g =>
    cases hf
    show _ ↔ (_ ↔ Mem (convertIntSet A B _) r)
    rw [hm]; rfl
  | leReif c g =>
    cases hf
    show _ ↔ (_ ↔ Mem (convertIntSet A B _) r)
    rw [hm]; simp [Post.Holds, Post.ranges, InSet, IRange.has]
  | geReif c g =>
    cases hf
    show _ ↔ (_ ↔ Mem (convertIntSet A B _) r)
    rw [hm]; simp [Post.Holds, Post.ranges, InSet, IRange.has]
  | eqReif c g =>
    cases hf
    unfold targets Mem Intv.has
    simp only [Post.Holds, List.mem_singleton, exists_eq_left]
    rw [rndIfBothInt_eq (h.grid.on c), fin_le, fin_le, h.eq]
    have : v = c ↔ (A * c + B ≤ A * v + B ∧ A * v + B ≤ A * c + B) := by
      constructor
      · rintro rfl; exact ⟨le_rfl, le_rfl⟩
      · rintro ⟨h1, h2⟩
        have : A * (v : ℚ) = A * c := by linarith
        have := mul_left_cancel₀ h.hA this
        exact_mod_cast this
    rw [this]

theorem implementPost_spec {w : View} (hw : ViewOk w) {enc : Option (Int × List Arg)} {flags : Bool} {s : List Intv}
    {F : Nat → Prop} {p : Post} (hp : p ∈ w.posts) (hfl : ∀ f ∈ p.flag?, F f) {st st' : Doms × List Lin}
    (hF : ∀ g, F g → FlagDom st.1 g) (h : implementPost enc flags s w.A w.B st p = some st') :
    Grows st st' F ∧ ∀ σ z (r v : ℤ), (r : ℚ) = w.A * v + w.B → Collects enc flags s σ z r →
      (StSat st' σ z ↔ StSat st σ z ∧ (p.flag? ≠ none → p.Holds σ v)) := by
  rw [implementPost_eq hw.hA] at h
  have hc := hw.canon p hp
  cases hf : p.flag? with
  | none =>
    rw [hf] at h
    rw [← Option.some.inj h]
    exact ⟨⟨fun σ h => h, fun l h => h, hF⟩, fun σ z r v _ _ => by simp⟩
  | some f =>
    rw [hf] at h
    dsimp only at h
    have hff := hfl f hf
    refine ⟨relate_grows hF hff h, fun σ z r v heq hcol => ?_⟩
    have hA : At w.A w.B r v := ⟨hw.hA, hw.grid, heq⟩
    have ht := targets_ok hw.hA hw.grid hc
    rw [relate_spec hcol (hF f hff) ht.1 ht.2 h, targets_mem hA hc hf σ]
    simp

theorem implementList_spec {w : View} (hw : ViewOk w) {enc : Option (Int × List Arg)} {flags : Bool} {s : List Intv}
    {F : Nat → Prop} (ps : List Post) : (∀ p ∈ ps, p ∈ w.posts) → (∀ p ∈ ps, ∀ f ∈ p.flag?, F f) →
    ∀ st st' : Doms × List Lin, (∀ g, F g → FlagDom st.1 g) → ps.foldlM (implementPost enc flags s w.A w.B) st = some st' →
    Grows st st' F ∧ ∀ σ z (r v : ℤ), (r : ℚ) = w.A * v + w.B → Collects enc flags s σ z r →
      (StSat st' σ z ↔ StSat st σ z ∧ ∀ p ∈ ps, p.flag? ≠ none → p.Holds σ v) := by
  induction ps with
  | nil =>
    intro _ _ st st' hF h
    rw [List.foldlM_nil] at h
    cases h
    exact ⟨⟨fun σ h => h, fun l h => h, hF⟩, fun σ z r v _ _ => by simp⟩
  | cons p ps ih =>
    intro hin hfl st st' hF h
    rw [List.foldlM_cons] at h
    obtain ⟨st1, h1, h2⟩ := Option.bind_eq_some_iff.mp h
    have a := implementPost_spec hw (hin p (by simp)) (hfl p (by simp)) hF h1
    have b := ih (fun q hq => hin q (by simp [hq])) (fun q hq => hfl q (by simp [hq])) st1 st' a.1.2.2 h2
    refine ⟨⟨fun σ hs => a.1.1 σ (b.1.1 σ hs), fun l hl => b.1.2.1 l (a.1.2.1 l hl), b.1.2.2⟩, fun σ z r v heq hcol => ?_⟩
    rw [b.2 σ z r v heq hcol, a.2 σ z r v heq hcol]
    simp only [List.forall_mem_cons, and_assoc]

/-- `implementPOSTs` adds what the reified constraints say. -/
theorem implementPosts_spec {enc : Option (Int × List Arg)} {flags : Bool} {s : List Intv} {F : Nat → Prop}
    (views : List View) : (∀ w ∈ views, ViewOk w) → (∀ w ∈ views, ∀ p ∈ w.posts, ∀ f ∈ p.flag?, F f) →
    ∀ st st' : Doms × List Lin, (∀ g, F g → FlagDom st.1 g) → implementPosts enc flags s views st = some st' →
    Grows st st' F ∧ ∀ σ z ref, Linked views ref σ → Collects enc flags s σ z (σ ref) →
      (StSat st' σ z ↔ StSat st σ z ∧ ∀ w ∈ views, ∀ p ∈ w.posts, p.flag? ≠ none → p.Holds σ (σ w.var)) := by
  induction views with
  | nil =>
    intro _ _ st st' hF h
    cases h
    exact ⟨⟨fun σ h => h, fun l h => h, hF⟩, fun σ z ref _ _ => by simp⟩
  | cons w ws ih =>
    intro hw hfl st st' hF h
    unfold implementPosts at h
    rw [List.foldlM_cons] at h
    obtain ⟨st1, h1, h2⟩ := Option.bind_eq_some_iff.mp h
    have a := implementList_spec (hw w (by simp)) w.posts (fun _ h => h) (hfl w (by simp)) st st1 hF h1
    have b := ih (fun q hq => hw q (by simp [hq])) (fun q hq => hfl q (by simp [hq])) st1 st' a.1.2.2 h2
    refine ⟨⟨fun σ hs => a.1.1 σ (b.1.1 σ hs), fun l hl => b.1.2.1 l (a.1.2.1 l hl), b.1.2.2⟩, fun σ z ref hl hcol => ?_⟩
    rw [b.2 σ z ref (fun q hq => hl q (by simp [hq])) hcol, a.2 σ z (σ ref) (σ w.var) (hl w (by simp)) hcol]
    simp only [List.forall_mem_cons, and_assoc]

end MZ.Mip
