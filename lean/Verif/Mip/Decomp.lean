import Verif.Mip.Round

/-! # The domain decomposition -/

namespace MZ.Mip

/-- The ranges of a set are in increasing order and do not overlap (as those of an `IntSetVal`). -/
def Canon (S : List IRange) : Prop := S.Pairwise (fun a b => ∃ x ∈ a.hi, ∃ y ∈ b.lo, x < y)

/-- Images of separate ranges are separate. -/
theorem convRange_apart {A B : ℚ} (hA : A ≠ 0) (hg : Grid A B) {a b : IRange} (h : ∃ x ∈ a.hi, ∃ y ∈ b.lo, x < y) :
    (convRange A B a).right < (convRange A B b).left ∨ (convRange A B b).right < (convRange A B a).left := by
  obtain ⟨x, hx, y, hy, hxy⟩ := h
  rw [Option.mem_def] at hx hy
  have hxy' : (x : ℚ) < y := by exact_mod_cast hxy
  rcases lt_or_gt_of_ne hA with hA | hA
  · right
    rw [convRange_neg hA, convRange_neg hA]
    dsimp only
    rw [hx, hy]
    dsimp only
    rw [fin_lt, rndUp_eq (hg.on' x), rndDown_eq (hg.on' y)]
    have h1 := Int.floor_le ((y : ℚ) * A + B)
    have h2 := Int.le_ceil ((x : ℚ) * A + B)
    nlinarith
  · left
    rw [convRange_pos hA, convRange_pos hA]
    dsimp only
    rw [hx, hy]
    dsimp only
    rw [fin_lt, rndUp_eq (hg.on' y), rndDown_eq (hg.on' x)]
    have h1 := Int.floor_le ((x : ℚ) * A + B)
    have h2 := Int.le_ceil ((y : ℚ) * A + B)
    nlinarith

theorem convFold {A B : ℚ} (hA : A ≠ 0) (hg : Grid A B) (S : List IRange) : ∀ (T : List IRange) (s : List Intv),
    Canon (T ++ S) → Strict s → (∀ e, e ∈ s ↔ ∃ g ∈ T, e = convRange A B g ∧ e.left ≤ e.right) →
      Strict (S.foldl (fun s r => insertI s (convRange A B r)) s) ∧
      ∀ e, e ∈ S.foldl (fun s r => insertI s (convRange A B r)) s ↔ ∃ g ∈ T ++ S, e = convRange A B g ∧ e.left ≤ e.right := by
  induction S with
  | nil => intro T s hc hs h; rw [List.append_nil]; exact ⟨hs, h⟩
  | cons g S ih =>
    intro T s hc hs h
    have hap := List.pairwise_append.mp hc
    have hins := insertI_spec hs (convRange A B g) (convRange_ends g).1 (convRange_ends g).2.1 (by
      intro _ e he
      obtain ⟨g', hg', rfl, -⟩ := (h e).mp he
      exact convRange_apart hA hg (hap.2.2 g' hg' g (by simp)))
    have := ih (T ++ [g]) _ (by rwa [List.append_assoc]) hins.1 (by
      intro e
      rw [hins.2 e, h e]
      constructor
      · rintro (⟨g', hg', h1⟩ | ⟨rfl, h1⟩)
        · exact ⟨g', by simp [hg'], h1⟩
        · exact ⟨g, by simp, rfl, h1⟩
      · rintro ⟨g', hg', h1⟩
        rcases List.mem_append.mp hg' with hg' | hg'
        · exact .inl ⟨g', hg', h1⟩
        · rw [List.mem_singleton] at hg'; subst hg'
          exact .inr ⟨h1.1, h1.1 ▸ h1.2⟩)
    rw [List.append_assoc] at this
    exact this

/-- The intervals of `convertIntSet` are the non-empty images of the ranges. -/
theorem convertIntSet_spec {A B : ℚ} (hA : A ≠ 0) (hg : Grid A B) {S : List IRange} (hc : Canon S) :
    Strict (convertIntSet A B S) ∧ ∀ e, e ∈ convertIntSet A B S ↔ ∃ g ∈ S, e = convRange A B g ∧ e.left ≤ e.right := by
  have := convFold hA hg S [] [] hc ⟨by simp, List.Pairwise.nil⟩ (by simp)
  exact this

theorem convertIntSet_mem {A B : ℚ} {r v : ℤ} (h : At A B r v) {S : List IRange} (hc : Canon S) :
    Mem (convertIntSet A B S) r ↔ InSet S v := by
  have hs := (convertIntSet_spec h.hA h.grid hc).2
  constructor
  · rintro ⟨e, he, hx⟩
    obtain ⟨g, hg, rfl, -⟩ := (hs e).mp he
    exact ⟨g, hg, (convRange_has h g).mp hx⟩
  · rintro ⟨g, hg, hx⟩
    have := (convRange_has h g).mpr hx
    exact ⟨convRange A B g, (hs _).mpr ⟨g, hg, rfl, this.1.trans this.2⟩, this⟩

theorem convertIntSet_near {A B : ℚ} {r v : ℤ} (h : At A B r v) {S : List IRange} (hc : Canon S) :
    ∀ e ∈ convertIntSet A B S, ¬ Near (max 1 |A|) e r := by
  intro e he
  obtain ⟨g, hg, rfl, -⟩ := ((convertIntSet_spec h.hA h.grid hc).2 e).mp he
  exact convRange_near h g

theorem convertIntSet_ends {A B : ℚ} {r v : ℤ} (h : At A B r v) {S : List IRange} (hc : Canon S) :
    Ends (LOk r) (ROk r) (convertIntSet A B S) := by
  intro e he
  obtain ⟨g, hg, rfl, -⟩ := ((convertIntSet_spec h.hA h.grid hc).2 e).mp he
  have hE := convRange_ends (A := A) (B := B) g
  refine ⟨fun t ht => ?_, fun t ht => ?_⟩
  · obtain ⟨k, rfl⟩ := hE.2.2.1 t ht
    exact ⟨onGrid_int k, .inl ⟨k, rfl⟩⟩
  · obtain ⟨k, rfl⟩ := hE.2.2.2 t ht
    exact ⟨onGrid_int k, .inl ⟨k, rfl⟩⟩

theorem convertIntSet_steps {A B : ℚ} {r v : ℤ} (h : At A B r v) {S : List IRange} (hc : Canon S) :
    (∀ e ∈ convertIntSet A B S, ∀ q, e.left = fin q → LOk r (fin q) ∧ ROk r (fin (q - max 1 |A|))) ∧
    (∀ e ∈ convertIntSet A B S, ∀ q, e.right = fin q → ROk r (fin q) ∧ LOk r (fin (q + max 1 |A|))) := by
  refine ⟨fun e he q hq => ?_, fun e he q hq => ?_⟩
  · have hE := convertIntSet_ends h hc e he
    have hN := convertIntSet_near h hc e he
    obtain ⟨g, hg, rfl, -⟩ := ((convertIntSet_spec h.hA h.grid hc).2 e).mp he
    obtain ⟨k, rfl⟩ := (convRange_ends g).2.2.1 q hq
    refine ⟨hq ▸ hE.1, ROk_step h k ?_⟩
    rintro ⟨h1, h2⟩
    refine hN (.inl ⟨by rw [hq]; exact fin_ne_bot _, ?_, ?_⟩) <;> rw [hq]
    · rw [shift_fin, fin_lt, ← sub_eq_add_neg]; exact h1
    · rw [fin_lt]; exact h2
  · have hE := convertIntSet_ends h hc e he
    have hN := convertIntSet_near h hc e he
    obtain ⟨g, hg, rfl, -⟩ := ((convertIntSet_spec h.hA h.grid hc).2 e).mp he
    obtain ⟨k, rfl⟩ := (convRange_ends g).2.2.2 q hq
    refine ⟨hq ▸ hE.2, LOk_step h k ?_⟩
    rintro ⟨h1, h2⟩
    refine hN (.inr ⟨by rw [hq]; exact fin_ne_top _, ?_, ?_⟩) <;> rw [hq]
    · rw [fin_lt]; exact h1
    · rw [shift_fin, fin_lt]; exact h2

/-! ## The constraints as sets -/

/-- The set that the flag of a reified constraint tests. -/
def Post.ranges : Post → List IRange
  | .leReif c _ => [⟨none, some c⟩]
  | .geReif c _ => [⟨some c, none⟩]
  | .eqReif c _ => [⟨some c, some c⟩]
  | .setInReif S _ => S
  | _ => []

theorem insertI_nil_of_le {e : Intv} (h : e.left ≤ e.right) : insertI [] e = [e] := by
  unfold insertI; rw [if_neg (not_lt.mpr h)]; rfl

theorem insertI_nil_of_lt {e : Intv} (h : e.right < e.left) : insertI [] e = [] := by
  unfold insertI; rw [if_pos h]

theorem eq_stdRound {x : ℚ} (h : ⌈x⌉ ≤ ⌊x⌋) : x = stdRound x := by
  have h1 := Int.le_ceil x
  have h2 := Int.floor_le x
  have h3 : (⌈x⌉ : ℚ) ≤ ⌊x⌋ := by exact_mod_cast h
  have : x = ⌊x⌋ := by linarith
  rw [this, stdRound_int]

theorem convRange_eq {A B : ℚ} (hA : A ≠ 0) (hg : Grid A B) (c : ℤ) :
    convRange A B ⟨some c, some c⟩ = ⟨fin ⌈A * c + B⌉, fin ⌊A * c + B⌋⟩ := by
  have e1 : convRange A B ⟨some c, some c⟩ = ⟨fin (rndUp (c * A + B)), fin (rndDown (c * A + B))⟩ := by
    rcases lt_or_gt_of_ne hA with h | h
    · rw [convRange_neg h]
    · rw [convRange_pos h]
  rw [e1, rndUp_eq (hg.on' c), rndDown_eq (hg.on' c), mul_comm]

/-- Cutting for a reified constraint is cutting around the image of its set. -/
theorem projectPost_reif {A B : ℚ} (hA : A ≠ 0) (hg : Grid A B) (s : List Intv) (p : Post) {f : Nat} (hp : p.flag? = some f) :
    projectPost A B s p = cutDeltas s (convertIntSet A B p.ranges) (max 1 |A|) := by
  have h1 : ∀ g : IRange, convertIntSet A B [g] = insertI [] (convRange A B g) := fun g => rfl
  cases p with
  | ne c => simp [Post.flag?] at hp
  | setIn S => simp [Post.flag?] at hp
  | setInReif S g => rfl
  | leReif c g =>
    unfold projectPost Post.ranges cutDeltas1 computeDelta
    dsimp only
    rw [h1]
    rcases lt_or_gt_of_ne hA with h | h
    · rw [if_pos h, convRange_neg h, mul_comm]
    · rw [if_neg (not_lt.mpr h.le), convRange_pos h, mul_comm]
  | geReif c g =>
    unfold projectPost Post.ranges cutDeltas1 computeDelta
    dsimp only
    rw [h1]
    rcases lt_or_gt_of_ne hA with h | h
    · rw [if_pos h, convRange_neg h, mul_comm]
    · rw [if_neg (not_lt.mpr h.le), convRange_pos h, mul_comm]
  | eqReif c g =>
    unfold projectPost Post.ranges cutDeltas1 computeDelta
    dsimp only
    rw [h1, convRange_eq hA hg]
    by_cases he : A * c + B = stdRound (A * c + B)
    · rw [if_neg (not_lt.mpr ((stdRound_near (hg.on c)).mpr he))]
      generalize stdRound (A * c + B) = k at he
      rw [he, Int.floor_intCast, Int.ceil_intCast]
    · rw [if_pos (not_le.mp (fun h => he ((stdRound_near (hg.on c)).mp h)))]
      rw [insertI_nil_of_lt]
      · rfl
      · rw [fin_lt, Int.cast_lt]
        exact not_le.mp (fun h => he (eq_stdRound h))

/-- What a constraint leaves of the domain. -/
def Keep (A B : ℚ) (p : Post) (x : ℚ) : Prop :=
  match p with
  | .setIn S => Mem (convertIntSet A B S) x
  | .ne c => A * c + B = stdRound (A * c + B) → ¬ (A * c + B - max 1 |A| < x ∧ x < A * c + B + max 1 |A|)
  | p => ∀ e ∈ convertIntSet A B p.ranges, ¬ Near (max 1 |A|) e x

theorem canon_ranges {p : Post} (h : ∀ S ∈ p.set?, Canon S) : Canon p.ranges := by
  cases p with
  | setInReif S f => exact h S rfl
  | _ => simp [Post.ranges, Canon]

theorem keep_reif {A B : ℚ} {p : Post} {f : Nat} (hp : p.flag? = some f) (x : ℚ) :
    Keep A B p x ↔ ∀ e ∈ convertIntSet A B p.ranges, ¬ Near (max 1 |A|) e x := by
  cases p <;> simp [Post.flag?] at hp <;> rfl

theorem pos_delta (A : ℚ) : 0 < max 1 |A| := lt_of_lt_of_le one_pos (le_max_left _ _)

theorem projectPost_spec {A B : ℚ} {r v : ℤ} (h : At A B r v) (p : Post) (hc : ∀ S ∈ p.set?, Canon S) {s : List Intv}
    (hs : Strict s) (he : Ends (LOk r) (ROk r) s) :
    Strict (projectPost A B s p) ∧ Ends (LOk r) (ROk r) (projectPost A B s p) ∧
      ∀ x, Mem (projectPost A B s p) x ↔ Mem s x ∧ Keep A B p x := by
  cases hf : p.flag? with
  | some f =>
    rw [projectPost_reif h.hA h.grid s p hf]
    have hst := convertIntSet_steps h (canon_ranges hc)
    have := cutDeltas_spec (pos_delta A) (convertIntSet A B p.ranges) hst.1 hst.2
      (fun e he => ⟨((convertIntSet_spec h.hA h.grid (canon_ranges hc)).1.1 e he).2.1,
        ((convertIntSet_spec h.hA h.grid (canon_ranges hc)).1.1 e he).2.2⟩) s hs he
    refine ⟨this.1, this.2.1, fun x => ?_⟩
    rw [this.2.2 x, keep_reif hf]
  | none =>
    cases p with
    | setIn S =>
      exact intersect_spec (LOk_top r) (ROk_bot r) hs (convertIntSet_spec h.hA h.grid (hc S rfl)).1 he
        (convertIntSet_ends h (hc S rfl))
    | ne c =>
      unfold projectPost computeDelta
      dsimp only
      by_cases hi : A * c + B = stdRound (A * c + B)
      · rw [if_neg (not_lt.mpr ((stdRound_near (h.grid.on c)).mpr hi))]
        have hd := pos_delta A
        have hN := convRange_near h ⟨some c, some c⟩
        rw [convRange_eq h.hA h.grid c] at hN
        unfold Keep
        dsimp only
        generalize hk : stdRound (A * c + B) = k at hi
        rw [hi] at hN ⊢
        rw [Int.ceil_intCast, Int.floor_intCast] at hN
        have hlt : fin ((k : ℚ) - max 1 |A|) < fin ((k : ℚ) + max 1 |A|) := by rw [fin_lt]; linarith
        refine ⟨strict_cutOut hs hlt, ends_cutOut hs hlt he (LOk_step h k ?_) (ROk_step h k ?_), fun x => ?_⟩
        · rintro ⟨h1, h2⟩
          exact hN (.inr ⟨fin_ne_top _, fin_lt.mpr h1, by dsimp only; rw [shift_fin, fin_lt]; exact h2⟩)
        · rintro ⟨h1, h2⟩
          exact hN (.inl ⟨fin_ne_bot _, by dsimp only; rw [shift_fin, fin_lt, ← sub_eq_add_neg]; exact h1, fin_lt.mpr h2⟩)
        · rw [mem_cutOut hs hlt, fin_lt, fin_lt]
          simp
      · rw [if_pos (not_le.mp (fun h' => hi ((stdRound_near (h.grid.on c)).mp h')))]
        refine ⟨hs, he, fun x => ?_⟩
        unfold Keep
        exact ⟨fun h' => ⟨h', fun h'' => absurd h'' hi⟩, fun h' => h'.1⟩
    | _ => simp [Post.flag?] at hf

/-- The static constraints keep `r` exactly if they hold; the others always keep it. -/
theorem keep_iff {A B : ℚ} {r v : ℤ} (h : At A B r v) (p : Post) (hc : ∀ S ∈ p.set?, Canon S) (σ : Nat → Int) :
    Keep A B p r ↔ (p.flag? = none → p.Holds σ v) := by
  cases hf : p.flag? with
  | some f =>
    rw [keep_reif hf]
    simpa using convertIntSet_near h (canon_ranges hc)
  | none =>
    cases p with
    | setIn S => simpa [Keep, Post.Holds] using convertIntSet_mem h (hc S rfl)
    | ne c =>
      simp only [Keep, Post.Holds, true_implies]
      have hd := pos_delta A
      constructor
      · rintro h1 rfl
        rw [← h.eq] at h1
        exact h1 (by rw [stdRound_int]) ⟨by linarith, by linarith⟩
      · rintro hne hi ⟨h1, h2⟩
        generalize stdRound (A * c + B) = k at hi
        rw [hi] at h1 h2
        have hA := h.hA
        have hdiff : (r : ℚ) - k = A * (v - c) := by rw [h.eq, ← hi]; ring
        have hvc : (1 : ℚ) ≤ |(v : ℚ) - c| := by
          have : 1 ≤ |v - c| := Int.one_le_abs (sub_ne_zero.mpr hne)
          exact_mod_cast this
        have habs : |A| ≤ |(r : ℚ) - k| := by
          rw [hdiff, abs_mul]
          exact le_mul_of_one_le_right (abs_nonneg A) hvc
        have hrk : r ≠ k := by
          rintro rfl
          rw [sub_self, abs_zero] at habs
          exact hA (abs_nonpos_iff.mp habs)
        have hone : (1 : ℚ) ≤ |(r : ℚ) - k| := by
          have : 1 ≤ |r - k| := Int.one_le_abs (sub_ne_zero.mpr hrk)
          exact_mod_cast this
        have := max_le hone habs
        have h3 : |(r : ℚ) - k| < max 1 |A| := abs_lt.mpr ⟨by linarith, by linarith⟩
        linarith
    | _ => simp [Post.flag?] at hf

/-! ## All variables -/

/-- A view that the code can work with: its coefficients are fine, its sets are in order. -/
structure ViewOk (w : View) : Prop where
  hA : w.A ≠ 0
  grid : Grid w.A w.B
  canon : ∀ p ∈ w.posts, ∀ S ∈ p.set?, Canon S

/-- What a view leaves of the domain. -/
def KeepView (dom : Doms) (w : View) (x : ℚ) : Prop :=
  (∀ S ∈ dom w.var, Mem (convertIntSet w.A w.B S) x) ∧ ∀ p ∈ w.posts, Keep w.A w.B p x

theorem projectPosts_spec {A B : ℚ} {r v : ℤ} (h : At A B r v) (ps : List Post) (hc : ∀ p ∈ ps, ∀ S ∈ p.set?, Canon S) :
    ∀ s, Strict s → Ends (LOk r) (ROk r) s → Strict (ps.foldl (projectPost A B) s) ∧
      Ends (LOk r) (ROk r) (ps.foldl (projectPost A B) s) ∧
      ∀ x, Mem (ps.foldl (projectPost A B) s) x ↔ Mem s x ∧ ∀ p ∈ ps, Keep A B p x := by
  induction ps with
  | nil => intro s hs he; exact ⟨hs, he, by simp⟩
  | cons p ps ih =>
    intro s hs he
    have h1 := projectPost_spec h p (hc p (by simp)) hs he
    have h2 := ih (fun q hq => hc q (by simp [hq])) _ h1.1 h1.2.1
    refine ⟨h2.1, h2.2.1, fun x => ?_⟩
    rw [List.foldl_cons, h2.2.2 x, h1.2.2 x]
    simp only [List.forall_mem_cons, and_assoc]

theorem project_spec {w : View} {r v : ℤ} (hw : ViewOk w) (heq : (r : ℚ) = w.A * v + w.B) {dom : Doms}
    (hd : ∀ S ∈ dom w.var, Canon S) {s : List Intv} (hs : Strict s) (he : Ends (LOk r) (ROk r) s) :
    Strict (project dom s w) ∧ Ends (LOk r) (ROk r) (project dom s w) ∧
      ∀ x, Mem (project dom s w) x ↔ Mem s x ∧ KeepView dom w x := by
  have h : At w.A w.B r v := ⟨hw.hA, hw.grid, heq⟩
  unfold project KeepView
  cases hdom : dom w.var with
  | none =>
    have := projectPosts_spec h w.posts hw.canon s hs he
    refine ⟨this.1, this.2.1, fun x => ?_⟩
    dsimp only
    rw [this.2.2 x]; simp
  | some S =>
    have hS := hd S hdom
    have h1 := intersect_spec (LOk_top r) (ROk_bot r) hs (convertIntSet_spec h.hA h.grid hS).1 he (convertIntSet_ends h hS)
    have := projectPosts_spec h w.posts hw.canon _ h1.1 h1.2.1
    refine ⟨this.1, this.2.1, fun x => ?_⟩
    dsimp only
    rw [this.2.2 x, h1.2.2 x]
    simp only [Option.mem_def, Option.some.injEq, forall_eq', and_assoc]

/-- The decomposition for values that satisfy the linear equations. -/
theorem decompose_spec {views : List View} {ref : Nat} {dom : Doms} {σ : Nat → Int} (hw : ∀ w ∈ views, ViewOk w)
    (hd : ∀ w ∈ views, ∀ S ∈ dom w.var, Canon S) (hl : Linked views ref σ) :
    Strict (decompose dom views) ∧ Ends (LOk (σ ref)) (ROk (σ ref)) (decompose dom views) ∧
      ∀ x, Mem (decompose dom views) x ↔ ∀ w ∈ views, KeepView dom w x := by
  have key : ∀ (vs : List View) (s : List Intv), (∀ w ∈ vs, w ∈ views) → Strict s → Ends (LOk (σ ref)) (ROk (σ ref)) s →
      Strict (vs.foldl (project dom) s) ∧ Ends (LOk (σ ref)) (ROk (σ ref)) (vs.foldl (project dom) s) ∧
      ∀ x, Mem (vs.foldl (project dom) s) x ↔ Mem s x ∧ ∀ w ∈ vs, KeepView dom w x := by
    intro vs
    induction vs with
    | nil => intro s _ hs he; exact ⟨hs, he, by simp⟩
    | cons w vs ih =>
      intro s hin hs he
      have hwin := hin w (by simp)
      have h1 := project_spec (hw w hwin) (hl w hwin) (hd w hwin) hs he
      have h2 := ih _ (fun x hx => hin x (by simp [hx])) h1.1 h1.2.1
      refine ⟨h2.1, h2.2.1, fun x => ?_⟩
      rw [List.foldl_cons, h2.2.2 x, h1.2.2 x]
      simp only [List.forall_mem_cons, and_assoc]
  have := key views [⟨⊥, ⊤⟩] (fun _ h => h) ⟨by simp, by simp⟩ (by
    intro e he
    rw [List.mem_singleton] at he; subst he
    exact ⟨LOk_bot _, ROk_top _⟩)
  refine ⟨this.1, this.2.1, fun x => ?_⟩
  unfold decompose
  rw [this.2.2 x]
  exact ⟨fun h => h.2, fun h => ⟨⟨⟨⊥, ⊤⟩, by simp, bot_le, le_top⟩, h⟩⟩

/-- The value of the reference variable is in the decomposition exactly if all variables of the group are in their domains and
the constraints without a flag hold. -/
theorem decompose_mem {views : List View} {ref : Nat} {dom : Doms} {σ : Nat → Int} (hw : ∀ w ∈ views, ViewOk w)
    (hd : ∀ w ∈ views, ∀ S ∈ dom w.var, Canon S) (hl : Linked views ref σ) :
    Mem (decompose dom views) (σ ref) ↔ ∀ w ∈ views, (∀ S ∈ dom w.var, InSet S (σ w.var)) ∧
      ∀ p ∈ w.posts, p.flag? = none → p.Holds σ (σ w.var) := by
  rw [(decompose_spec hw hd hl).2.2]
  refine forall₂_congr fun w hwin => ?_
  have h : At w.A w.B (σ ref) (σ w.var) := ⟨(hw w hwin).hA, (hw w hwin).grid, hl w hwin⟩
  unfold KeepView
  refine and_congr (forall₂_congr fun S hS => convertIntSet_mem h (hd w hwin S hS)) ?_
  exact forall₂_congr fun p hp => keep_iff h p ((hw w hwin).canon p hp) σ

end MZ.Mip
