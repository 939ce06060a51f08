import Verif.NL.Step

/-!
# Every builtin is translated to what it means
-/

namespace MZ.NL

variable {K : Type} [Field K] [LinearOrder K] [IsStrictOrderedRing K] [FloorRing K]

/-- What a kind of translation says, in terms of the NL operators. -/
def kindMeans (F : Funs K) (k : Kind) (cs xs as : List K) : Prop :=
  match k with
  | .linEq => linRel (· = ·) cs xs as
  | .linLe => linRel (· ≤ ·) cs xs as
  | .linPred oc => linRel (fun a b => ∃ w, nlOp2 F oc a b = some w ∧ w ≠ 0) cs xs as
  | .eq => rel2 (· = ·) as
  | .le => rel2 (· ≤ ·) as
  | .pred oc => rel2 (fun a b => ∃ w, nlOp2 F oc a b = some w ∧ w ≠ 0) as
  | .bin oc => rel3 (fun x y z => nlOp2 F oc x y = some z) as
  | .mbin oc => rel3 (fun x y z => nlOpN oc [x, y] = some z) as
  | .un oc => rel2 (fun x y => nlOp1 F oc x = some y) as
  | .log2 => rel2 (fun x y => F.log2 x = some y) as
  | .int2float => rel2 (· = ·) as

/-- The operator has the arity of the builder. -/
def kindOK : Kind → Bool
  | .linPred oc => !isOp1 oc
  | .pred oc => !isOp1 oc
  | .bin oc => !isOp1 oc
  | .un oc => isOp1 oc
  | _ => true

theorem kindOf_mem {id : String} {k : Kind} (h : kindOf id = some k) : (id, k) ∈ kinds := by
  unfold kindOf at h
  generalize kinds = l at h
  induction l with
  | nil => simp at h
  | cons e l ih =>
    rw [List.lookup_cons] at h
    by_cases he : id = e.1
    · subst he
      simp only [beq_self_eq_true, Option.some.injEq] at h
      subst h
      exact List.mem_cons_self
    · have : (id == e.1) = false := by simpa using he
      rw [this] at h
      exact List.mem_cons_of_mem _ (ih h)

theorem kinds_ok : ∀ e ∈ kinds, kindOK e.2 = true := by decide

theorem kinds_linPred : ∀ e ∈ kinds, ∀ oc, e.2 = .linPred oc →
    e.1 ∈ ["int_lin_ne", "float_lin_ne", "float_lin_lt"] := by
  have : ∀ e ∈ kinds, (match e.2 with | .linPred _ => true | _ => false) = true →
    e.1 ∈ ["int_lin_ne", "float_lin_ne", "float_lin_lt"] := by decide
  intro e he oc h
  exact this e he (by rw [h])

theorem kinds_eq : ∀ e ∈ kinds, e.2 = .eq → e.1 ∈ ["int_eq", "float_eq"] := by decide

theorem kinds_le : ∀ e ∈ kinds, e.2 = .le → e.1 ∈ ["int_le", "float_le"] := by decide

/-! ## The arithmetic -/

theorem trunc_cast (a b : ℤ) (hb : b ≠ 0) :
    (if (0 : K) ≤ (a : K) / b then (⌊(a : K) / b⌋ : ℤ) else (⌈(a : K) / b⌉ : ℤ)) = a.tdiv b := by
  have hbK : (b : K) ≠ 0 := by exact_mod_cast hb
  have hmod := Int.tmod_add_mul_tdiv a b
  have hlt : (a.tmod b).natAbs < b.natAbs := by
    rw [Int.natAbs_tmod]; exact Nat.mod_lt _ (Int.natAbs_pos.2 hb)
  have key : (a : K) / b = (a.tdiv b : ℤ) + (a.tmod b : ℤ) / (b : K) := by
    rw [eq_comm, ← sub_eq_zero]
    field_simp
    have : (a : K) = (a.tmod b : ℤ) + (b : K) * (a.tdiv b : ℤ) := by exact_mod_cast hmod.symm
    rw [this]; ring
  have habs : |((a.tmod b : ℤ) : K) / b| < 1 := by
    rw [abs_div, div_lt_one (abs_pos.2 hbK)]
    have h1 : |a.tmod b| < |b| := by
      rw [Int.abs_eq_natAbs, Int.abs_eq_natAbs]; exact_mod_cast hlt
    exact_mod_cast h1
  rw [abs_lt] at habs
  split_ifs with h0
  · rw [Int.floor_eq_iff]
    rcases lt_or_ge (((a.tmod b : ℤ) : K) / b) 0 with hn | hn
    · -- the remainder has the sign of `a`, so a negative fraction means a negative quotient
      exfalso
      have hq : 0 < a.tdiv b := by
        by_contra hq
        push Not at hq
        have : ((a.tdiv b : ℤ) : K) ≤ 0 := by exact_mod_cast hq
        linarith
      have hab : (0 < a ∧ 0 < b) ∨ (a < 0 ∧ b < 0) := by
        rcases lt_trichotomy a 0 with ha | ha | ha
        · rcases lt_or_gt_of_ne hb with hb' | hb'
          · exact Or.inr ⟨ha, hb'⟩
          · have := Int.tdiv_nonneg (a := -a) (b := b) (by omega) hb'.le
            rw [Int.neg_tdiv] at this; omega
        · subst ha; simp at hq
        · rcases lt_or_gt_of_ne hb with hb' | hb'
          · exact absurd (Int.tdiv_nonpos_of_nonneg_of_nonpos ha.le hb'.le) (by omega)
          · exact Or.inl ⟨ha, hb'⟩
      rcases hab with ⟨ha, hb'⟩ | ⟨ha, hb'⟩
      · have h1 : 0 ≤ a.tmod b := Int.tmod_nonneg b ha.le
        have : (0 : K) ≤ ((a.tmod b : ℤ) : K) / b :=
          div_nonneg (by exact_mod_cast h1) (by exact_mod_cast hb'.le)
        linarith
      · have h1 : a.tmod b ≤ 0 := by
          have := Int.tmod_nonneg b (a := -a) (by omega)
          rw [Int.neg_tmod] at this; omega
        have : (0 : K) ≤ ((a.tmod b : ℤ) : K) / b :=
          div_nonneg_of_nonpos (by exact_mod_cast h1) (by exact_mod_cast hb'.le)
        linarith
    · constructor <;> linarith
  · push Not at h0
    rw [Int.ceil_eq_iff]
    rcases lt_or_ge 0 (((a.tmod b : ℤ) : K) / b) with hn | hn
    · exfalso
      have hq : a.tdiv b < 0 := by
        by_contra hq
        push Not at hq
        have : (0 : K) ≤ ((a.tdiv b : ℤ) : K) := by exact_mod_cast hq
        linarith
      have hab : (0 < a ∧ b < 0) ∨ (a < 0 ∧ 0 < b) := by
        rcases lt_trichotomy a 0 with ha | ha | ha
        · rcases lt_or_gt_of_ne hb with hb' | hb'
          · have := Int.tdiv_nonneg_of_nonpos_of_nonpos ha.le hb'.le; omega
          · exact Or.inr ⟨ha, hb'⟩
        · subst ha; simp at hq
        · rcases lt_or_gt_of_ne hb with hb' | hb'
          · exact Or.inl ⟨ha, hb'⟩
          · have := Int.tdiv_nonneg ha.le hb'.le; omega
      rcases hab with ⟨ha, hb'⟩ | ⟨ha, hb'⟩
      · have h1 : 0 ≤ a.tmod b := Int.tmod_nonneg b ha.le
        have : ((a.tmod b : ℤ) : K) / b ≤ 0 :=
          div_nonpos_of_nonneg_of_nonpos (by exact_mod_cast h1) (by exact_mod_cast hb'.le)
        linarith
      · have h1 : a.tmod b ≤ 0 := by
          have := Int.tmod_nonneg b (a := -a) (by omega)
          rw [Int.neg_tmod] at this; omega
        have : ((a.tmod b : ℤ) : K) / b ≤ 0 :=
          div_nonpos_of_nonpos_of_nonneg (by exact_mod_cast h1) (by exact_mod_cast hb'.le)
        linarith
    · constructor <;> linarith

theorem mod_means (F : Funs K) {x y z : K} (hx : ∃ a : ℤ, x = a) (hy : ∃ b : ℤ, y = b) :
    nlOp2 F 4 x y = some z ↔ ∃ a b : ℤ, x = a ∧ y = b ∧ b ≠ 0 ∧ z = ((a.tmod b : ℤ) : K) := by
  obtain ⟨a, rfl⟩ := hx
  obtain ⟨b, rfl⟩ := hy
  simp only [nlOp2]
  by_cases hb : b = 0
  · subst hb
    simp only [Int.cast_zero, if_true, reduceCtorEq, false_iff]
    rintro ⟨a', b', -, hb', h0, -⟩
    exact h0 (by exact_mod_cast hb'.symm)
  · have hbK : (b : K) ≠ 0 := by exact_mod_cast hb
    rw [if_neg hbK]
    have ht := trunc_cast (K := K) a b hb
    have hm : ((a.tmod b : ℤ) : K) = a - b * (a.tdiv b : ℤ) := by
      have := Int.tmod_add_mul_tdiv a b
      have : (a : K) = (a.tmod b : ℤ) + (b : K) * (a.tdiv b : ℤ) := by exact_mod_cast this.symm
      linear_combination -this
    rw [ht, ← hm]
    constructor
    · intro h
      exact ⟨a, b, rfl, rfl, hb, by simpa using h.symm⟩
    · rintro ⟨a', b', ha, hb', -, hz⟩
      have ha' : a' = a := by exact_mod_cast ha.symm
      have hb'' : b' = b := by exact_mod_cast hb'.symm
      subst ha' hb''
      rw [hz]

theorem div_means (F : Funs K) {x y z : K} (hx : ∃ a : ℤ, x = a) (hy : ∃ b : ℤ, y = b)
    (he : ∀ a b : ℤ, x = a → y = b → b ∣ a) :
    nlOp2 F 3 x y = some z ↔ ∃ a b : ℤ, x = a ∧ y = b ∧ b ≠ 0 ∧ z = ((a.tdiv b : ℤ) : K) := by
  obtain ⟨a, rfl⟩ := hx
  obtain ⟨b, rfl⟩ := hy
  simp only [nlOp2]
  by_cases hb : b = 0
  · subst hb
    simp only [Int.cast_zero, if_true, reduceCtorEq, false_iff]
    rintro ⟨a', b', -, hb', h0, -⟩
    exact h0 (by exact_mod_cast hb'.symm)
  · have hbK : (b : K) ≠ 0 := by exact_mod_cast hb
    rw [if_neg hbK]
    obtain ⟨q, rfl⟩ := he a b rfl rfl
    have hq : (b * q).tdiv b = q := Int.mul_tdiv_cancel_left q hb
    have hq' : ((b * q : ℤ) : K) / b = q := by
      push_cast; field_simp
    constructor
    · intro h
      refine ⟨b * q, b, rfl, rfl, hb, ?_⟩
      rw [hq]; rw [hq'] at h; simpa using h.symm
    · rintro ⟨a', b', ha, hb', -, hz⟩
      have ha' : a' = b * q := by exact_mod_cast ha.symm
      have hb'' : b' = b := by exact_mod_cast hb'.symm
      subst hb'' ha'
      rw [hz, hq, hq']

theorem pow_means (F : Funs K) {x y z : K} (hx : ∃ a : ℤ, x = a) (hy : ∃ b : ℤ, y = b) (h0 : 0 ≤ y) :
    nlOp2 F 5 x y = some z ↔ ∃ a b : ℤ, x = a ∧ y = b ∧
      ((0 ≤ b ∧ z = ((a ^ b.toNat : ℤ) : K)) ∨
       (b < 0 ∧ a ≠ 0 ∧ z = (((1 : ℤ).tdiv (a ^ (-b).toNat) : ℤ) : K))) := by
  obtain ⟨a, rfl⟩ := hx
  obtain ⟨b, rfl⟩ := hy
  have hb : 0 ≤ b := by exact_mod_cast h0
  obtain ⟨n, rfl⟩ := Int.eq_ofNat_of_zero_le hb
  simp only [nlOp2, Int.cast_natCast, F.pow_nat]
  constructor
  · intro h
    refine ⟨a, n, rfl, by simp, Or.inl ⟨by omega, ?_⟩⟩
    simpa using h.symm
  · rintro ⟨a', b', ha, hb', h | h⟩
    · have ha' : a' = a := by exact_mod_cast ha.symm
      have hb'' : b' = n := by exact_mod_cast hb'.symm
      subst ha' hb''
      rw [h.2]; simp
    · have hb'' : b' = n := by exact_mod_cast hb'.symm
      omega

theorem cmp_means (p : Prop) [Decidable p] : (∃ w : K, some (b2k p : K) = some w ∧ w ≠ 0) ↔ p := by
  unfold b2k
  by_cases h : p <;> simp [h]

theorem rel3_congr {r r' : K → K → K → Prop} (as : List K)
    (h : ∀ x y z, as = [x, y, z] → (r x y z ↔ r' x y z)) : rel3 r as ↔ rel3 r' as := by
  unfold rel3
  split
  · exact h _ _ _ rfl
  · rfl

/-- The translation of a builtin means the builtin. -/
theorem kindMeans_iff (F : Funs K) {id : String} {k : Kind} (h : (id, k) ∈ kinds) (cs xs as : List K)
    (hi : id ∈ ["int_div", "int_mod", "int_pow"] → ∀ a ∈ as, ∃ z : ℤ, a = z)
    (hd : id = "int_div" → rel3 (fun x y _ : K => ∀ a b : ℤ, x = a → y = b → b ∣ a) as)
    (hp : id = "int_pow" → rel3 (fun _ y _ : K => 0 ≤ y) as) :
    kindMeans F k cs xs as ↔ meaning F id cs xs as := by
  simp only [kinds, List.mem_cons, List.not_mem_nil, or_false, Prod.mk.injEq] at h
  rcases h with h | h | h | h | h | h | h | h | h | h | h | h | h | h | h | h | h | h | h | h | h | h |
    h | h | h | h | h | h | h | h | h | h | h | h | h | h | h | h | h | h | h | h | h | h | h | h | h | h <;>
    obtain ⟨rfl, rfl⟩ := h
  all_goals try simp only [kindMeans, meaning, String.reduceEq, or_self, or_false, or_true, true_or, false_or,
    if_true, if_false, nlOp1, nlOp2, nlOpN, cmp_means, reduceCtorEq]
  all_goals first
    | rfl
    | (simp only [Option.some.injEq, List.foldl_cons, List.foldl_nil]; done)
    | (refine rel3_congr as fun x y z has => ?_
       subst has
       exact div_means F (hi (by decide) x (by simp)) (hi (by decide) y (by simp)) (hd rfl))
    | (refine rel3_congr as fun x y z has => ?_
       subst has
       exact mod_means F (hi (by decide) x (by simp)) (hi (by decide) y (by simp)))
    | (refine rel3_congr as fun x y z has => ?_
       subst has
       exact pow_means F (hi (by decide) x (by simp)) (hi (by decide) y (by simp)) (hp rfl))
    | (exact rel3_congr as fun x y z _ => by by_cases hy : y = 0 <;> simp [hy])

/-! ## Bounds from comparisons with a constant -/

/-- A comparison with a constant is a unary call. -/
theorem unary_of {c : Call K} {id k} (hk : (id, k) ∈ kinds) (hid : c.id = id)
    (h : k = .eq ∨ k = .le) {x : K} {n : String} (ha : c.args = [.c x, .v n] ∨ c.args = [.v n, .c x]) :
    c.unary n := by
  refine ⟨?_, x, ha⟩
  rw [hid]
  rcases h with rfl | rfl
  · have := kinds_eq _ hk rfl; simp at this ⊢; tauto
  · have := kinds_le _ hk rfl; simp at this ⊢; tauto

theorem onBound_known {upd : Bound K → Option (Bound K)} {vs vs' : List (Var K)} {n : String}
    (h : onBound upd vs n = some vs') : ∃ v ∈ vs, v.name = n := by
  induction vs generalizing vs' with
  | nil => simp [onBound] at h
  | cons v vs ih =>
    simp only [onBound] at h
    split_ifs at h with hn
    · exact ⟨v, by simp, hn⟩
    · cases hr : onBound upd vs n with
      | none => simp [hr] at h
      | some vs'' =>
        obtain ⟨w, hw, he⟩ := ih hr
        exact ⟨w, by simp [hw], he⟩

theorem nlconsEq_sat {f f' : File K} {x y : Arg K} (h : nlconsEq f x y = some f') (F : Funs K)
    (s : String → K) (hcc : ∀ a b, x = .c a → y = .c b → a = b) (W : String → K)
    (hW : varsOK W f.vars)
    (hu : ∀ n a, (∃ v ∈ f.vars, v.name = n) →
      (x = .c a ∧ y = .v n) ∨ (x = .v n ∧ y = .c a) → W n = a) :
    (f'.sat F s ↔ f.sat F s ∧ x.val s = y.val s) ∧ varsOK W f'.vars := by
  cases x with
  | c a =>
    cases y with
    | c b =>
      simp only [nlconsEq, Option.some.injEq] at h; subst h
      have := hcc a b rfl rfl
      simp [Arg.val, this, hW]
    | v n =>
      simp only [nlconsEq, Option.map_eq_some_iff] at h
      obtain ⟨vs, hv, rfl⟩ := h
      have hWn : W n = a := hu n a (onBound_known hv) (Or.inl ⟨rfl, rfl⟩)
      have key := fun s => onBound_sat hv s (s n = a) (by
        intro v hvm hvn b' hb'
        simp only [Option.some.injEq] at hb'; subst hb'
        refine updateEq_allows v.bound ?_
        have := hW v hvm
        rwa [hvn, hWn] at this)
      refine ⟨?_, (key W).2 ⟨hW, hWn⟩⟩
      simp only [File.sat, key s, Arg.val]
      rw [eq_comm (a := a)]; tauto
  | v m =>
    cases y with
    | c a =>
      simp only [nlconsEq, Option.map_eq_some_iff] at h
      obtain ⟨vs, hv, rfl⟩ := h
      have hWn : W m = a := hu m a (onBound_known hv) (Or.inr ⟨rfl, rfl⟩)
      have key := fun s => onBound_sat hv s (s m = a) (by
        intro v hvm hvn b' hb'
        simp only [Option.some.injEq] at hb'; subst hb'
        refine updateEq_allows v.bound ?_
        have := hW v hvm
        rwa [hvn, hWn] at this)
      refine ⟨?_, (key W).2 ⟨hW, hWn⟩⟩
      simp only [File.sat, key s, Arg.val]
      tauto
    | v n =>
      simp only [nlconsEq] at h
      split_ifs at h with hmn
      · simp only [Option.some.injEq] at h; subst h
        simp [Arg.val, hmn, hW]
      · have := addAlg_sat h F s
        refine ⟨?_, (this.2 W).2 hW⟩
        rw [this.1]
        simp only [Alg.holds, List.isEmpty_nil, if_true, evalG_lin, Option.some.injEq, exists_eq_left',
          Bound.allows, jacVal, List.map_cons, List.map_nil, List.sum_cons, List.sum_nil, Arg.val]
        refine and_congr_right fun _ => ?_
        constructor <;> intro h <;> linear_combination h

theorem nlconsLe_sat {f f' : File K} {x y : Arg K} (h : nlconsLe f x y = some f') (F : Funs K)
    (s : String → K) (hcc : ∀ a b, x = .c a → y = .c b → a ≤ b) :
    (f'.sat F s ↔ f.sat F s ∧ x.val s ≤ y.val s) ∧
      ∀ W, varsOK W f.vars →
        (∀ n a, (∃ v ∈ f.vars, v.name = n) → x = .c a → y = .v n → a ≤ W n) →
        (∀ n a, (∃ v ∈ f.vars, v.name = n) → x = .v n → y = .c a → W n ≤ a) →
        varsOK W f'.vars := by
  cases x with
  | c a =>
    cases y with
    | c b =>
      simp only [nlconsLe, Option.some.injEq] at h; subst h
      have := hcc a b rfl rfl
      exact ⟨by simp [Arg.val, this], fun W hW _ _ => hW⟩
    | v n =>
      simp only [nlconsLe, Option.map_eq_some_iff] at h
      obtain ⟨vs, hv, rfl⟩ := h
      have key := fun s => onBound_sat hv s (a ≤ s n) (fun v _ _ b' hb' => updateLB_allows hb')
      refine ⟨?_, fun W hW h1 _ => (key W).2 ⟨hW, h1 n a (onBound_known hv) rfl rfl⟩⟩
      simp only [File.sat, key s, Arg.val]
      tauto
  | v m =>
    cases y with
    | c a =>
      simp only [nlconsLe, Option.map_eq_some_iff] at h
      obtain ⟨vs, hv, rfl⟩ := h
      have key := fun s => onBound_sat hv s (s m ≤ a) (fun v _ _ b' hb' => updateUB_allows hb')
      refine ⟨?_, fun W hW _ h2 => (key W).2 ⟨hW, h2 m a (onBound_known hv) rfl rfl⟩⟩
      simp only [File.sat, key s, Arg.val]
      tauto
    | v n =>
      simp only [nlconsLe] at h
      split_ifs at h with hmn
      · simp only [Option.some.injEq] at h; subst h
        exact ⟨by simp [Arg.val, hmn], fun W hW _ _ => hW⟩
      · have := addAlg_sat h F s
        refine ⟨?_, fun W hW _ _ => (this.2 W).2 hW⟩
        rw [this.1]
        simp only [Alg.holds, List.isEmpty_nil, if_true, evalG_lin, Option.some.injEq, exists_eq_left',
          Bound.allows, jacVal, List.map_cons, List.map_nil, List.sum_cons, List.sum_nil, Arg.val]
        refine and_congr_right fun _ => ?_
        constructor <;> intro h <;> linarith

/-- An equality with a constant never loses a solution. -/
theorem nlconsEq_imp {f f' : File K} {x y : Arg K} (h : nlconsEq f x y = some f') (F : Funs K)
    (s : String → K) (hs : f.sat F s) (he : x.val s = y.val s) : f'.sat F s := by
  cases x with
  | c a =>
    cases y with
    | c b => simp only [nlconsEq, Option.some.injEq] at h; subst h; exact hs
    | v n =>
      simp only [nlconsEq, Option.map_eq_some_iff] at h
      obtain ⟨vs, hv, rfl⟩ := h
      refine ⟨onBound_imp hv s ?_ hs.1, hs.2⟩
      intro v _ _ b' hb' ha
      simp only [Option.some.injEq] at hb'; subst hb'
      exact updateEq_of _ ha he.symm
  | v m =>
    cases y with
    | c a =>
      simp only [nlconsEq, Option.map_eq_some_iff] at h
      obtain ⟨vs, hv, rfl⟩ := h
      refine ⟨onBound_imp hv s ?_ hs.1, hs.2⟩
      intro v _ _ b' hb' ha
      simp only [Option.some.injEq] at hb'; subst hb'
      exact updateEq_of _ ha he
    | v n =>
      simp only [nlconsEq] at h
      split_ifs at h with hmn
      · simp only [Option.some.injEq] at h; subst h; exact hs
      · rw [(addAlg_sat h F s).1]
        refine ⟨hs, 0, evalG_lin F s, ?_⟩
        simp only [Arg.val] at he
        simp [Bound.allows, jacVal, he]

/-- Every call other than an equality or inequality, whatever the bounds are. -/
theorem build_sat {f f' : File K} {k : Kind} {c : Call K} (h : build f k c = some f')
    (hk : (c.id, k) ∈ kinds) (hne : k ≠ .eq) (hnl : k ≠ .le) (F : Funs K) (s : String → K)
    (hl : c.coeffs.length = c.vars.length)
    (h2 : c.id ∈ ["int_lin_ne", "float_lin_ne", "float_lin_lt"] → 2 ≤ c.coeffs.length) :
    (f'.sat F s ↔ f.sat F s ∧ kindMeans F k c.coeffs (c.vars.map s) (c.args.map (Arg.val s))) ∧
      (∀ W, varsOK W f'.vars ↔ varsOK W f.vars) := by
  have hok := kinds_ok _ hk
  unfold build at h
  split at h
  · rename_i v ha; rw [ha]; exact linconsEq_sat h hl F s
  · rename_i v ha; rw [ha]; exact linconsLe_sat h hl F s
  · rename_i oc v ha
    simp only [Option.some.injEq] at h; subst h; rw [ha]
    exact ⟨linPred_sat f oc v hl (h2 (kinds_linPred _ hk oc rfl)) (by simpa [kindOK] using hok) F s,
      fun W => Iff.rfl⟩
  · exact absurd rfl hne
  · exact absurd rfl hnl
  · rename_i oc x y ha
    simp only [Option.some.injEq] at h; subst h; rw [ha]
    exact ⟨pred_sat f oc x y (by simpa [kindOK] using hok) F s, fun W => Iff.rfl⟩
  · rename_i oc x y z ha
    rw [ha]
    have := bin_sat h F s
    rw [evalG_bin F s oc (by simpa [kindOK] using hok)] at this
    exact this
  · rename_i oc x y z ha
    rw [ha]
    have := bin_sat h F s
    rw [evalG_mbin F s oc] at this
    exact this
  · rename_i oc x y ha
    rw [ha]
    have := un_sat h F s
    rw [evalG_un F s oc (by simpa [kindOK] using hok)] at this
    exact this
  · rename_i x y ha; rw [ha]; exact log2_sat h F s
  · rename_i x y ha
    rw [ha]
    have := linconsEq_sat h (by simp) F s
    refine ⟨?_, this.2⟩
    rw [this.1]
    simp only [kindMeans, rel2, dot, Arg.val, List.map_cons, List.map_nil, List.zipWith_cons_cons,
      List.zipWith_nil_right, List.sum_cons, List.sum_nil]
    refine and_congr_right fun _ => ?_
    constructor <;> intro h <;> linear_combination h
  · simp at h

/-- One call: the file afterwards says what it said before and what the call says. -/
theorem analyse_sat {f f' : File K} {c : Call K} (h : analyse f c = some f') (F : Funs K)
    (s : String → K) (p : Flat K) (hwf : c.wf p)
    (hi : c.id ∈ ["int_div", "int_mod", "int_pow"] → ∀ a ∈ c.args.map (Arg.val s), ∃ z : ℤ, a = z)
    (hex : c.exact s) (W : String → K) (hW : varsOK W f.vars)
    (hu : ∀ n, (∃ v ∈ f.vars, v.name = n) → c.unary n → c.holds F (fun _ => W n)) :
    (f'.sat F s ↔ f.sat F s ∧ c.holds F s) ∧ varsOK W f'.vars := by
  simp only [analyse, Option.bind_eq_some_iff] at h
  obtain ⟨k, hk, hb⟩ := h
  have hk := kindOf_mem hk
  have hm : ∀ (t : String → K), (c.id ∈ ["int_div", "int_mod", "int_pow"] → ∀ a ∈ c.args.map (Arg.val t), ∃ z : ℤ, a = z) →
      c.exact t → (kindMeans F k c.coeffs (c.vars.map t) (c.args.map (Arg.val t)) ↔ c.holds F t) :=
    fun t hi he => kindMeans_iff F hk _ _ _ hi he.1 he.2
  by_cases hke : k = .eq
  · subst hke
    have hid := kinds_eq _ hk rfl
    have hni : c.id ∉ ["int_div", "int_mod", "int_pow"] := by
      simp only [List.mem_cons, List.not_mem_nil, or_false] at hid
      rcases hid with h | h <;> rw [h] <;> decide
    have hm' : ∀ t : String → K, kindMeans F .eq c.coeffs (c.vars.map t) (c.args.map (Arg.val t)) ↔ c.holds F t :=
      fun t => hm t (fun h => absurd h hni) ⟨fun h => absurd (by simp [h]) hni, fun h => absurd (by simp [h]) hni⟩
    have hb' := hb
    unfold build at hb
    split at hb <;> try (simp at hb; done)
    all_goals try contradiction
    rename_i x y _ ha
    have := nlconsEq_sat hb F s
      (fun a b hx hy => (hwf.2.2.1 a b (by rw [ha, hx, hy])).1 (by simpa using hid)) W hW
      (fun n a hn hxy => by
        have hun : c.unary n := unary_of hk rfl (Or.inl rfl) (x := a) (by
          rcases hxy with ⟨rfl, rfl⟩ | ⟨rfl, rfl⟩
          · exact Or.inl ha
          · exact Or.inr ha)
        have := (hm' _).2 (hu n hn hun)
        rw [ha] at this
        rcases hxy with ⟨rfl, rfl⟩ | ⟨rfl, rfl⟩ <;>
          simp only [kindMeans, rel2, List.map_cons, List.map_nil, Arg.val] at this
        · exact this.symm
        · exact this)
    refine ⟨?_, this.2⟩
    rw [this.1, ← hm' s, ha]
    rfl
  · by_cases hkl : k = .le
    · subst hkl
      have hid := kinds_le _ hk rfl
      have hni : c.id ∉ ["int_div", "int_mod", "int_pow"] := by
        simp only [List.mem_cons, List.not_mem_nil, or_false] at hid
        rcases hid with h | h <;> rw [h] <;> decide
      have hm' : ∀ t : String → K, kindMeans F .le c.coeffs (c.vars.map t) (c.args.map (Arg.val t)) ↔ c.holds F t :=
        fun t => hm t (fun h => absurd h hni) ⟨fun h => absurd (by simp [h]) hni, fun h => absurd (by simp [h]) hni⟩
      unfold build at hb
      split at hb <;> try (simp at hb; done)
      all_goals try contradiction
      rename_i x y _ ha
      have := nlconsLe_sat hb F s
        (fun a b hx hy => (hwf.2.2.1 a b (by rw [ha, hx, hy])).2 (by simpa using hid))
      refine ⟨?_, this.2 W hW ?_ ?_⟩
      · rw [this.1, ← hm' s, ha]; rfl
      · intro n a hn hx hy
        have hun : c.unary n := unary_of hk rfl (Or.inr rfl) (x := a) (by rw [ha, hx, hy]; exact Or.inl rfl)
        have := (hm' _).2 (hu n hn hun)
        rw [ha, hx, hy] at this
        exact this
      · intro n a hn hx hy
        have hun : c.unary n := unary_of hk rfl (Or.inr rfl) (x := a) (by rw [ha, hx, hy]; exact Or.inr rfl)
        have := (hm' _).2 (hu n hn hun)
        rw [ha, hx, hy] at this
        exact this
    · have := build_sat hb hk hke hkl F s hwf.1 hwf.2.1
      refine ⟨?_, (this.2 W).2 hW⟩
      rw [this.1, hm s hi hex]

/-- One call, without a condition on the bounds: no solution is lost. -/
theorem analyse_imp {f f' : File K} {c : Call K} (h : analyse f c = some f') (F : Funs K)
    (s : String → K) (p : Flat K) (hwf : c.wf p)
    (hi : c.id ∈ ["int_div", "int_mod", "int_pow"] → ∀ a ∈ c.args.map (Arg.val s), ∃ z : ℤ, a = z)
    (hex : c.exact s) (hs : f.sat F s) (hc : c.holds F s) : f'.sat F s := by
  simp only [analyse, Option.bind_eq_some_iff] at h
  obtain ⟨k, hk, hb⟩ := h
  have hk := kindOf_mem hk
  have hm : kindMeans F k c.coeffs (c.vars.map s) (c.args.map (Arg.val s)) :=
    (kindMeans_iff F hk _ _ _ hi hex.1 hex.2).2 hc
  by_cases hke : k = .eq
  · subst hke
    unfold build at hb
    split at hb <;> try (simp at hb; done)
    all_goals try contradiction
    rename_i x y _ ha
    rw [ha] at hm
    exact nlconsEq_imp hb F s hs hm
  · by_cases hkl : k = .le
    · subst hkl
      unfold build at hb
      split at hb <;> try (simp at hb; done)
      all_goals try contradiction
      rename_i x y _ ha
      rw [ha] at hm
      refine ((nlconsLe_sat hb F s ?_).1).2 ⟨hs, hm⟩
      rintro a b rfl rfl
      exact hm
    · exact ((build_sat hb hk hke hkl F s hwf.1 hwf.2.1).1).2 ⟨hs, hm⟩

end MZ.NL
