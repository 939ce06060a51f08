import Verif.OptCons.Spec
import Verif.Linear.Props
import Verif.Linear.FlattenProps
import Mathlib.Tactic.Linarith
/-!
# Lemmas about the constraint optimisers
-/
namespace MZ
namespace OptCons
open Linear (Atom LinOp)

theorem safeDiv_ok {x y z : Int} (h : safeDiv x y = .ok z) : y ≠ 0 ∧ z = x.tdiv y := by
  unfold safeDiv at h
  split at h
  · simp at h
  · rename_i hy
    refine ⟨hy, ?_⟩
    split at h
    · rename_i hx; simp at h; subst hx; simp [← h]
    · split at h
      · simp at h
      · exact (ll_eq_ok h).1

theorem safeMod_ok {x y z : Int} (h : safeMod x y = .ok z) : y ≠ 0 ∧ z = x.tmod y := by
  unfold safeMod at h
  split at h
  · simp at h
  · rename_i hy
    refine ⟨hy, ?_⟩
    split at h
    · rename_i hx; simp at h; subst hx; simp [← h]
    · rw [Res.bind_eq_ok] at h
      obtain ⟨_, _, h⟩ := h
      simpa using h.symm

theorem absV_ok {x z : Int} (h : absV x = .ok z) : z = |x| := by
  unfold absV at h
  split at h
  · rename_i hx
    have := (MZ.safeMinus_ok h).1
    rw [abs_of_neg hx]; omega
  · simp at h; rw [abs_of_nonneg (by omega)]; exact h.symm

theorem floor_spec {a b q : Int} (hb : 0 < b) (h : ⌊(a : ℚ) / b⌋ = q) : q * b ≤ a ∧ a < (q + 1) * b := by
  have hb' : (0 : ℚ) < b := by exact_mod_cast hb
  rw [Int.floor_eq_iff, le_div_iff₀ hb', div_lt_iff₀ hb'] at h
  exact_mod_cast h

theorem ceil_spec {a b q : Int} (hb : 0 < b) (h : ⌈(a : ℚ) / b⌉ = q) : (q - 1) * b < a ∧ a ≤ q * b := by
  have hb' : (0 : ℚ) < b := by exact_mod_cast hb
  rw [Int.ceil_eq_iff, lt_div_iff₀ hb', div_le_iff₀ hb'] at h
  exact_mod_cast h

theorem mul_le_iff_floor {a b q x : Int} (hb : 0 < b) (h : q * b ≤ a ∧ a < (q + 1) * b) :
    b * x ≤ a ↔ x ≤ q := by
  constructor
  · intro h1
    by_contra h2
    have : (q + 1) * b ≤ x * b := by apply Int.mul_le_mul_of_nonneg_right <;> omega
    have e : x * b = b * x := Int.mul_comm _ _
    omega
  · intro h1
    have : x * b ≤ q * b := by apply Int.mul_le_mul_of_nonneg_right <;> omega
    have e : x * b = b * x := Int.mul_comm _ _
    omega

theorem le_mul_iff_ceil {a b q x : Int} (hb : 0 < b) (h : (q - 1) * b < a ∧ a ≤ q * b) :
    a ≤ b * x ↔ q ≤ x := by
  constructor
  · intro h1
    by_contra h2
    have : x * b ≤ (q - 1) * b := by apply Int.mul_le_mul_of_nonneg_right <;> omega
    have e : x * b = b * x := Int.mul_comm _ _
    omega
  · intro h1
    have : q * b ≤ x * b := by apply Int.mul_le_mul_of_nonneg_right <;> omega
    have e : x * b = b * x := Int.mul_comm _ _
    omega

/-- The bound computed for a single variable is exact when the numbers are below `2^53`. -/
theorem linBound_spec {c rd nd : Int} (hc : |c| < 2 ^ 53) (hr : |rd| < 2 ^ 53)
    (h : linBound c rd = .ok nd) (x : Int) :
    c * x ≤ rd ↔ if c < 0 then nd ≤ x else x ≤ nd := by
  unfold linBound at h
  rw [Res.bind_eq_ok] at h
  obtain ⟨ac, h1, h⟩ := h
  rw [Res.bind_eq_ok] at h
  obtain ⟨ad, h2, h⟩ := h
  rw [Res.bind_eq_ok] at h
  obtain ⟨m, h3, h⟩ := h
  have e1 := absV_ok h1
  have e2 := absV_ok h2
  obtain ⟨hac0, hm⟩ := safeMod_ok h3
  have hc0 : c ≠ 0 := by rintro rfl; simp at e1; exact hac0 e1
  have hacp : 0 < ac := by rw [e1]; exact abs_pos.2 hc0
  have hca : |ac| < 2 ^ 53 := by rw [e1, abs_abs]; exact hc
  have hra : |ad| < 2 ^ 53 := by rw [e2, abs_abs]; exact hr
  have hcs : (0 ≤ c ∧ c = ac) ∨ (c < 0 ∧ c = -ac) := by
    rcases lt_or_ge c 0 with h | h
    · right; rw [e1, abs_of_neg h]; omega
    · left; rw [e1, abs_of_nonneg h]; omega
  have hrs : (0 ≤ rd ∧ rd = ad) ∨ (rd < 0 ∧ rd = -ad) := by
    rcases lt_or_ge rd 0 with h | h
    · right; rw [e2, abs_of_neg h]; omega
    · left; rw [e2, abs_of_nonneg h]; omega
  by_cases hm0 : m = 0
  · rw [if_pos hm0] at h
    have hq := (safeDiv_ok h).2
    have hdvd : c ∣ rd := by
      have : ac ∣ ad := Int.dvd_of_tmod_eq_zero (by rw [← hm]; exact hm0)
      rwa [e1, e2, abs_dvd, dvd_abs] at this
    have hmul : rd = c * nd := by
      rw [hq, Int.mul_tdiv_cancel' hdvd]
    rw [hmul]
    split
    · rename_i hn
      exact mul_le_mul_left_of_neg hn
    · rename_i hn
      exact mul_le_mul_iff_right₀ (by omega)
  · rw [if_neg hm0] at h
    have hF : ∀ q, Dbl.floorDiv ad ac = .ok q → q * ac ≤ ad ∧ ad < (q + 1) * ac := by
      intro q hq
      rw [C43_floorDiv_partial _ _ hra hca hac0] at hq
      exact floor_spec hacp (by simpa using hq)
    have hC : ∀ q, Dbl.ceilDiv ad ac = .ok q → (q - 1) * ac < ad ∧ ad ≤ q * ac := by
      intro q hq
      rw [C43_ceilDiv_partial _ _ hra hca hac0] at hq
      exact ceil_spec hacp (by simpa using hq)
    by_cases h4 : c ≥ 0 ∧ rd ≥ 0
    · rw [if_pos h4] at h
      rw [if_neg (by omega)]
      have := mul_le_iff_floor (x := x) hacp (hF _ h)
      rcases hcs with hcs | hcs <;> rcases hrs with hrs | hrs <;> try omega
      rw [hcs.2, hrs.2]; exact this
    · rw [if_neg h4] at h
      by_cases h5 : rd ≥ 0
      · rw [if_pos h5, Res.bind_eq_ok] at h
        obtain ⟨q, hq, h⟩ := h
        have hnd := (ll_eq_ok h).1
        rw [if_pos (by omega)]
        have := mul_le_iff_floor (x := -x) hacp (hF _ hq)
        rcases hcs with hcs | hcs <;> rcases hrs with hrs | hrs <;> try omega
        rw [hcs.2, hrs.2, neg_mul, ← mul_neg, this]; omega
      · rw [if_neg h5] at h
        by_cases h6 : c ≥ 0
        · rw [if_pos h6, Res.bind_eq_ok] at h
          obtain ⟨q, hq, h⟩ := h
          have hnd := (ll_eq_ok h).1
          rw [if_neg (by omega)]
          have := le_mul_iff_ceil (x := -x) hacp (hC _ hq)
          rcases hcs with hcs | hcs <;> rcases hrs with hrs | hrs <;> try omega
          have e : ac * x ≤ -ad ↔ ad ≤ ac * -x := by rw [mul_neg]; omega
          rw [hcs.2, hrs.2, e, this]; omega
        · rw [if_neg h6] at h
          rw [if_pos (by omega)]
          have := le_mul_iff_ceil (x := x) hacp (hC _ h)
          rcases hcs with hcs | hcs <;> rcases hrs with hrs | hrs <;> try omega
          have e : -ac * x ≤ -ad ↔ ad ≤ ac * x := by rw [neg_mul]; omega
          rw [hcs.2, hrs.2, e, this]

theorem Linear.sum_single (ρ : Atom → Int) (c : Int) (a : Atom) :
    Linear.sum ρ [(c, a)] = c * a.eval ρ := by simp [Linear.sum]

theorem orUB_ok {α : Type} {o : Option α} {a : α} (h : orUB o = .ok a) : o = some a := by
  cases o <;> simp [orUB] at h; rw [h]

theorem minmax {D : List Range} (hN : Normal D) {x : Int} (hm : Mem x D) {mn mx : Ext}
    (h1 : IntSet.min? D = some mn) (h2 : IntSet.max? D = some mx) : mn ≤ .fin x ∧ .fin x ≤ mx := by
  obtain ⟨a, b, ha, hb, h3, h4⟩ := Linear.hull_of_mem hN hm
  rw [h1] at ha; rw [h2] at hb
  simp at ha hb; subst ha hb; exact ⟨h3, h4⟩

theorem linRest_right {E : Env} {op : LinOp} {n : Nat} {ts0 ts : List (Int × Atom)} {d k : Int}
    {st : Status Con} (hv : ∀ ρ, Linear.sum ρ ts + d = Linear.sum ρ ts0)
    (h : linRest op n ts d k = .ok st) : Right E (.lin op ts0 k) st := by
  unfold linRest at h
  split at h
  · rw [Res.bind_eq_ok] at h
    obtain ⟨k', h1, h⟩ := h
    have := (MZ.safeMinus_ok h1).1
    simp at h; subst h
    intro σ _
    have e := hv σ.int
    cases op <;> simp only [Con.holds, LinOp.holds] <;> omega
  · simp at h; subst h; trivial

theorem linEq1_right {E : Env} (hE : WF E) {c : Int} {a : Atom} {ts0 : List (Int × Atom)} {d k : Int}
    {st : Status Con} (hv : ∀ ρ, Linear.sum ρ [(c, a)] + d = Linear.sum ρ ts0)
    (h : linEq1 E c a d k = .ok st) : Right E (.lin .eq ts0 k) st := by
  unfold linEq1 at h
  rw [Res.bind_eq_ok] at h
  obtain ⟨rd, h1, h⟩ := h
  rw [Res.bind_eq_ok] at h
  obtain ⟨m, h2, h⟩ := h
  have e1 := (MZ.safeMinus_ok h1).1
  obtain ⟨hc0, e2⟩ := safeMod_ok h2
  have key : ∀ σ : Asg, Con.holds σ (.lin .eq ts0 k) ↔ c * a.eval σ.int = rd := by
    intro σ
    have := hv σ.int
    rw [Linear.sum_single] at this
    simp only [Con.holds, LinOp.holds]; omega
  split at h
  · rename_i hm0
    rw [Res.bind_eq_ok] at h
    obtain ⟨nd, h3, h⟩ := h
    have e3 := (safeDiv_ok h3).2
    have hdvd : c ∣ rd := Int.dvd_of_tmod_eq_zero (by rw [← e2]; exact hm0)
    have hmul : rd = c * nd := by rw [e3, Int.mul_tdiv_cancel' hdvd]
    have key2 : ∀ σ : Asg, Con.holds σ (.lin .eq ts0 k) ↔ a.eval σ.int = nd := by
      intro σ; rw [key, hmul]; exact mul_right_inj' hc0
    split at h
    · rename_i D hD
      split at h
      · simp at h; subst h
        intro σ _; rw [key2]; rfl
      · rename_i hcont
        simp at h; subst h
        intro σ hσ; rw [key2]
        intro he
        apply hcont
        rw [C07_contains _ _ (hE a D hD), ← he]
        exact hσ.1 a D hD
    · simp at h; subst h
      intro σ _; rw [key2]; rfl
  · rename_i hm0
    simp at h; subst h
    intro σ _; rw [key]
    intro he
    apply hm0
    rw [e2, ← he]; simp

theorem linLeDom_right {E : Env} (hE : WF E) {c nd : Int} {a : Atom} {D : List Range} (hD : E.dom a = some D)
    {C : Con} {st : Status Con}
    (key : ∀ σ : Asg, C.holds σ ↔ if c < 0 then nd ≤ a.eval σ.int else a.eval σ.int ≤ nd)
    (h : linLeDom c nd a D = .ok st) : Right E C st := by
  unfold linLeDom at h
  rw [Res.bind_eq_ok] at h
  obtain ⟨mx, h1, h⟩ := h
  rw [Res.bind_eq_ok] at h
  obtain ⟨mn, h2, h⟩ := h
  have b : ∀ σ, Respects E σ → mn ≤ .fin (a.eval σ.int) ∧ .fin (a.eval σ.int) ≤ mx := fun σ hσ =>
    minmax (hE a D hD) (hσ.1 a D hD) (orUB_ok h2) (orUB_ok h1)
  by_cases hc : c < 0
  · simp only [if_pos hc] at h key
    split at h
    · rename_i h3
      simp at h; subst h
      intro σ hσ; rw [key]
      have := lt_of_le_of_lt (b σ hσ).2 h3
      simp at this; omega
    · split at h
      · rename_i h3
        simp at h; subst h
        intro σ hσ; rw [key]
        have := le_trans h3 (b σ hσ).1
        simpa using this
      · simp at h; subst h
        intro σ hσ; rw [key]; rfl
  · simp only [if_neg hc] at h key
    split at h
    · rename_i h3
      simp at h; subst h
      intro σ hσ; rw [key]
      have := lt_of_lt_of_le h3 (b σ hσ).1
      simp at this; omega
    · split at h
      · rename_i h3
        simp at h; subst h
        intro σ hσ; rw [key]
        have := le_trans (b σ hσ).2 h3
        simpa using this
      · simp at h; subst h
        intro σ hσ; rw [key]; rfl

theorem linLe1_right {E : Env} (hE : WF E) {c : Int} {a : Atom} {ts0 : List (Int × Atom)} {n : Nat} {d k : Int}
    {st : Status Con} (hv : ∀ ρ, Linear.sum ρ [(c, a)] + d = Linear.sum ρ ts0)
    (hs : |c| < 2 ^ 53 ∧ |k - d| < 2 ^ 53)
    (h : linLe1 E n c a d k = .ok st) : Right E (.lin .le ts0 k) st := by
  unfold linLe1 at h
  rw [Res.bind_eq_ok] at h
  obtain ⟨rd, h1, h⟩ := h
  rw [Res.bind_eq_ok] at h
  obtain ⟨nd, h2, h⟩ := h
  have e1 := (MZ.safeMinus_ok h1).1
  split at h
  · rename_i D hD
    refine linLeDom_right hE hD (fun σ => ?_) h
    rw [← linBound_spec hs.1 (by rw [e1]; exact hs.2) h2]
    have := hv σ.int
    rw [Linear.sum_single] at this
    simp only [Con.holds, LinOp.holds]; omega
  · exact linRest_right hv h

theorem linSimplified_right {E : Env} (hE : WF E) {op : LinOp} {ts0 ts : List (Int × Atom)} {n : Nat} {d k : Int}
    {st : Status Con} (hv : ∀ ρ, Linear.sum ρ ts + d = Linear.sum ρ ts0)
    (hs : op = .le → E.root = true → ∀ c a, ts = [(c, a)] → |c| < 2 ^ 53 ∧ |k - d| < 2 ^ 53)
    (h : linSimplified E op n ts d k = .ok st) : Right E (.lin op ts0 k) st := by
  unfold linSimplified at h
  split at h
  · simp at h; subst h
    have e : ∀ ρ, Linear.sum ρ ts0 = d := fun ρ => by
      have := hv ρ; simp [Linear.sum] at this ⊢; omega
    cases op <;> unfold linEmpty verdict <;> dsimp only
    all_goals
      split <;> rename_i h <;> simp only [decide_eq_true_eq] at h <;> intro σ _ <;>
      simp only [Con.holds, LinOp.holds, e] <;> omega
  · rename_i c a
    split at h
    · rename_i hr
      split at h
      · exact linEq1_right hE hv h
      · exact linLe1_right hE hv (hs rfl hr _ _ rfl) h
      · exact linRest_right hv h
    · exact linRest_right hv h
  · rename_i c0 a0 c1 a1
    split at h
    · rename_i ho
      obtain ⟨rfl, ho⟩ := ho
      rw [Res.bind_eq_ok] at h
      obtain ⟨rd, h1, h⟩ := h
      have e1 := (MZ.safeMinus_ok h1).1
      split at h
      · simp at h; subst h
        intro σ _
        have := hv σ.int
        simp [Linear.sum] at this
        simp only [Con.holds, LinOp.holds, Linear.sum]
        rw [← this]
        unfold isDiff at ho
        simp at ho
        rcases ho with ⟨rfl, rfl⟩ | ⟨rfl, rfl⟩ <;> omega
      · exact linRest_right hv h
    · exact linRest_right hv h
  · exact linRest_right hv h

theorem freeVars_mem {E : Env} {n : Nat} : ∀ {l : List BAtom}, n ∈ freeVars E l ↔ (.var n ∈ l ∧ E.bdom n = none)
  | [] => by simp [freeVars]
  | .lit b :: l => by simp [freeVars, freeVars_mem (l := l)]
  | .other b :: l => by simp [freeVars, freeVars_mem (l := l)]
  | .var m :: l => by
    unfold freeVars
    split
    · rename_i h
      simp [freeVars_mem (l := l)]
      simp at h
      constructor
      · rintro (rfl | h2)
        · exact ⟨.inl rfl, h⟩
        · exact ⟨.inr h2.1, h2.2⟩
      · rintro ⟨rfl | h2, h3⟩
        · exact .inl rfl
        · exact .inr ⟨h2, h3⟩
    · rename_i h
      simp [freeVars_mem (l := l)]
      intro h2 h3
      subst h3
      simp [h2] at h

theorem clauseScan_spec : ∀ (p q : List Nat), p.Pairwise (· ≤ ·) → q.Pairwise (· ≤ ·) →
    (clauseScan p q = true ↔ ∃ n, n ∈ p ∧ n ∈ q) := by
  intro p q
  fun_induction clauseScan p q with
  | case1 => simp
  | case2 => simp
  | case3 => intro _ _; simp only [true_iff]; exact ⟨_, List.mem_cons_self, List.mem_cons_self⟩
  | case4 p ps q qs hne hlt ih =>
    intro h1 h2
    rw [ih (List.pairwise_cons.1 h1).2 h2]
    constructor
    · rintro ⟨n, hn, hm⟩; exact ⟨n, by simp [hn], hm⟩
    · rintro ⟨n, hn, hm⟩
      rcases List.mem_cons.1 hn with rfl | hn
      · rcases List.mem_cons.1 hm with rfl | hm
        · exact absurd rfl hne
        · have := (List.pairwise_cons.1 h2).1 _ hm; omega
      · exact ⟨n, hn, hm⟩
  | case5 p ps q qs hne hlt ih =>
    intro h1 h2
    rw [ih h1 (List.pairwise_cons.1 h2).2]
    constructor
    · rintro ⟨n, hn, hm⟩; exact ⟨n, hn, by simp [hm]⟩
    · rintro ⟨n, hn, hm⟩
      rcases List.mem_cons.1 hm with rfl | hm
      · rcases List.mem_cons.1 hn with rfl | hn
        · exact absurd rfl hne
        · have := (List.pairwise_cons.1 h1).1 _ hn; omega
      · exact ⟨n, hn, hm⟩

theorem mergeSort_le (l : List Nat) : (l.mergeSort (fun a b => decide (a ≤ b))).Pairwise (· ≤ ·) := by
  have := List.pairwise_mergeSort (le := fun a b : Nat => decide (a ≤ b))
    (fun a b c => by simp; omega) (fun a b => by simp; omega) l
  simpa using this

theorem oForall_right (E : Env) : ∀ (l : List BAtom) (sub : Bool) (P : Asg → Prop),
    (sub = true → ∀ σ, Respects E σ → P σ) →
    match oForall E l sub with
    | .failed => ∀ σ, Respects E σ → ¬ ∀ a ∈ l, a.eval σ = true
    | .entailed => ∀ σ, Respects E σ → P σ ∧ ∀ a ∈ l, a.eval σ = true
    | .ok => True
    | .rewrite _ => False
  | [], sub, P, hP => by
    unfold oForall
    cases sub
    · simp
    · simp; exact hP rfl
  | .lit b :: l, sub, P, hP => by
    unfold oForall
    have := oForall_right E l sub P hP
    cases b
    · simp [BAtom.eval]
    · simpa [BAtom.eval] using this
  | .var n :: l, sub, P, hP => by
    unfold oForall
    cases hd : E.bdom n with
    | some b =>
      have := oForall_right E l sub P hP
      cases b
      · simp [BAtom.eval]
        intro σ hσ h
        have := hσ.2 n _ hd; simp [this] at h
      · have e : ∀ σ, Respects E σ → σ.bool (.var n) = true := fun σ hσ => hσ.2 n _ hd
        dsimp only
        rw [if_neg (by simp)]
        cases ho : oForall E l sub <;> simp only [ho] at this ⊢
        · intro σ hσ h; exact this σ hσ (fun a ha => h a (by simp [ha]))
        · intro σ hσ
          refine ⟨(this σ hσ).1, fun a ha => ?_⟩
          rcases List.mem_cons.1 ha with rfl | ha
          · exact e σ hσ
          · exact (this σ hσ).2 a ha
    | none =>
      have := oForall_right E l false (fun _ => False) (by simp)
      dsimp only
      cases ho : oForall E l false <;> simp only [ho] at this ⊢
      · intro σ hσ h; exact this σ hσ (fun a ha => h a (by simp [ha]))
      · intro σ hσ; exact (this σ hσ).1.elim
  | .other n :: l, sub, P, hP => by
    unfold oForall
    have := oForall_right E l false (fun _ => False) (by simp)
    cases ho : oForall E l false <;> simp only [ho] at this ⊢
    · intro σ hσ h; exact this σ hσ (fun a ha => h a (by simp [ha]))
    · intro σ hσ; exact (this σ hσ).1.elim

theorem oExists_right (E : Env) : ∀ (l : List BAtom) (f : Bool) (P : Asg → Prop),
    (f = true → ∀ σ, Respects E σ → ¬ P σ) →
    match oExists E l f with
    | .failed => ∀ σ, Respects E σ → ¬ (P σ ∨ ∃ a ∈ l, a.eval σ = true)
    | .entailed => ∀ σ, Respects E σ → ∃ a ∈ l, a.eval σ = true
    | .ok => True
    | .rewrite _ => False
  | [], f, P, hP => by
    unfold oExists
    cases f
    · simp
    · simp; exact hP rfl
  | .lit b :: l, f, P, hP => by
    unfold oExists
    have := oExists_right E l f P hP
    cases b
    · simpa [BAtom.eval] using this
    · simp [BAtom.eval]
  | .var n :: l, f, P, hP => by
    unfold oExists
    cases hd : E.bdom n with
    | some b =>
      have := oExists_right E l f P hP
      cases b
      · have e : ∀ σ, Respects E σ → σ.bool (.var n) = false := fun σ hσ => hσ.2 n _ hd
        dsimp only
        rw [if_neg (by simp)]
        cases ho : oExists E l f <;> simp only [ho] at this ⊢
        · rintro σ hσ (h | ⟨a, ha, h⟩)
          · exact this σ hσ (.inl h)
          · rcases List.mem_cons.1 ha with rfl | ha
            · have := e σ hσ; simp [BAtom.eval, this] at h
            · exact this σ hσ (.inr ⟨a, ha, h⟩)
        · intro σ hσ
          obtain ⟨a, ha, h⟩ := this σ hσ
          exact ⟨a, by simp [ha], h⟩
      · simp [BAtom.eval]
        intro σ hσ
        exact .inl (hσ.2 n _ hd)
    | none =>
      have := oExists_right E l false (fun _ => True) (by simp)
      dsimp only
      cases ho : oExists E l false <;> simp only [ho] at this ⊢
      · intro σ hσ _; exact this σ hσ (.inl trivial)
      · intro σ hσ
        obtain ⟨a, ha, h⟩ := this σ hσ
        exact ⟨a, by simp [ha], h⟩
  | .other n :: l, f, P, hP => by
    unfold oExists
    have := oExists_right E l false (fun _ => True) (by simp)
    cases ho : oExists E l false <;> simp only [ho] at this ⊢
    · intro σ hσ _; exact this σ hσ (.inl trivial)
    · intro σ hσ
      obtain ⟨a, ha, h⟩ := this σ hσ
      exact ⟨a, by simp [ha], h⟩

end OptCons
end MZ
