import Verif.Mip.Main

/-! # When the compiler does not give up -/

namespace MZ.Mip

theorem Strict.check {s : List Intv} (h : Strict s) : checkDisjunctStrict s = true := by
  obtain ⟨h1, h2⟩ := h
  induction s with
  | nil => rfl
  | cons e t ih =>
    have hp := List.pairwise_cons.mp h2
    have hi := ih (fun x hx => h1 x (by simp [hx])) hp.2
    cases t with
    | nil => simpa [checkDisjunctStrict] using (h1 e (by simp)).1
    | cons f t =>
      simp only [checkDisjunctStrict, Bool.and_eq_true, decide_eq_true_eq]
      exact ⟨⟨(h1 e (by simp)).1, hp.1 f (by simp)⟩, hi⟩

theorem intvFlags_some {flags : Bool} {s : List Intv} {e : Intv}
    (hs : ∀ d ∈ s, (d.left < e.left → d.right < e.left) ∧ (d.left ≤ e.right → d.right ≤ e.right))
    (hf : flags = true ∨ s.length = 1) : ∃ args, intvFlags flags s e = some args := by
  have key : ∀ (p : Intv → Bool), ∀ d ∈ (s.take (s.takeWhile p).length).getLast?, d ∈ s ∧ p d = true := by
    intro p d hd
    rw [← List.prefix_iff_eq_take.mp (List.takeWhile_prefix p)] at hd
    have := List.mem_of_getLast? hd
    exact ⟨(List.takeWhile_prefix p).subset this, (List.all_eq_true.mp (List.all_takeWhile (p := p) (l := s))) d this⟩
  unfold intvFlags
  dsimp only
  have hcond : (∀ d ∈ (s.take (s.takeWhile fun d => decide (d.left < e.left)).length).getLast?, d.right < e.left) ∧
      (∀ d ∈ (s.take (s.takeWhile fun d => decide (d.left ≤ e.right)).length).getLast?, d.right ≤ e.right) := by
    refine ⟨fun d hd => ?_, fun d hd => ?_⟩
    · obtain ⟨h1, h2⟩ := key _ d hd
      exact (hs d h1).1 (by simpa using h2)
    · obtain ⟨h1, h2⟩ := key _ d hd
      exact (hs d h1).2 (by simpa using h2)
  rw [if_pos hcond]
  · rcases hf with rfl | hf
    · rw [if_pos rfl]; exact ⟨_, rfl⟩
    · cases flags with
      | true => exact ⟨_, rfl⟩
      | false => rw [if_neg (by decide), if_neg (fun h => h.2 hf)]; exact ⟨_, rfl⟩

theorem collectAll_some {enc : Option (Int × List Arg)} {flags : Bool} {s : List Intv} (SS : List Intv)
    (h : ∀ e ∈ SS, ∃ args, collect enc flags s e = some args) : ∃ args, collectAll enc flags s SS = some args := by
  induction SS with
  | nil => cases enc <;> exact ⟨[], rfl⟩
  | cons e t ih =>
    obtain ⟨a, ha⟩ := h e (by simp)
    obtain ⟨b, hb⟩ := ih (fun x hx => h x (by simp [hx]))
    exact ⟨a ++ b, (collectAll_cons enc flags s e t).mpr ⟨a, b, ha, hb, rfl⟩⟩

theorem implementPosts_some {enc : Option (Int × List Arg)} {flags : Bool} {s : List Intv} (views : List View)
    (hA : ∀ w ∈ views, w.A ≠ 0)
    (h : ∀ w ∈ views, ∀ p ∈ w.posts, p.flag? ≠ none → ∀ e ∈ targets w.A w.B p, ∃ args, collect enc flags s e = some args) :
    ∀ st, ∃ st', implementPosts enc flags s views st = some st' := by
  have one : ∀ w ∈ views, ∀ p ∈ w.posts, ∀ st, ∃ st', implementPost enc flags s w.A w.B st p = some st' := by
    intro w hw p hp st
    rw [implementPost_eq (hA w hw)]
    cases hf : p.flag? with
    | none => exact ⟨_, rfl⟩
    | some f =>
      dsimp only
      rw [relate_eq]
      obtain ⟨args, ha⟩ := collectAll_some _ (h w hw p hp (by rw [hf]; simp))
      rw [ha, Option.bind_some]
      split <;> exact ⟨_, rfl⟩
  have fold : ∀ {α : Type} (g : Doms × List Lin → α → Option (Doms × List Lin)) (l : List α),
      (∀ a ∈ l, ∀ st, ∃ st', g st a = some st') → ∀ st, ∃ st', l.foldlM g st = some st' := by
    intro α g l
    induction l with
    | nil => intro _ st; exact ⟨st, rfl⟩
    | cons a t ih =>
      intro hg st
      obtain ⟨st', h1⟩ := hg a (by simp) st
      obtain ⟨st'', h2⟩ := ih (fun b hb => hg b (by simp [hb])) st'
      exact ⟨st'', by rw [List.foldlM_cons, h1]; exact h2⟩
  unfold implementPosts
  exact fold _ views fun w hw st => fold _ w.posts (one w hw) st

/-- A subinterval is not cut by the ends of an interval near which nothing is left. -/
theorem not_straddle {s : List Intv} (hs : Strict s) {e : Intv} {δ : ℚ} (hδ : 0 < δ) (hl : e.left ≠ ⊤) (hr : e.right ≠ ⊥)
    (hn : ∀ x, Mem s x → ¬ Near δ e x) :
    ∀ d ∈ s, (d.left < e.left → d.right < e.left) ∧ (d.left ≤ e.right → d.right ≤ e.right) := by
  intro d hd
  have hlt : ∀ q, fin (q - δ) < fin q := fun q => fin_lt.mpr (by linarith)
  constructor
  · intro h
    by_contra hc
    have hc := not_lt.mp hc
    rcases E_cases e.left with h' | h' | ⟨q, hq⟩
    · rw [h'] at h; exact absurd h not_lt_bot
    · exact hl h'
    · rw [hq] at h hc
      obtain ⟨x, h1, h2, h3⟩ : ∃ x : ℚ, d.left ≤ fin x ∧ q - δ < x ∧ x < q := by
        rcases E_cases d.left with h'' | h'' | ⟨a, ha⟩
        · exact ⟨q - δ / 2, h'' ▸ bot_le, by linarith, by linarith⟩
        · rw [h''] at h; exact absurd h not_top_lt
        · rw [ha, fin_lt] at h
          rcases le_total a (q - δ / 2) with h4 | h4
          · exact ⟨q - δ / 2, by rw [ha, fin_le]; exact h4, by linarith, by linarith⟩
          · exact ⟨a, by rw [ha], by linarith, h⟩
      refine hn x ⟨d, hd, h1, (fin_lt.mpr h3).le.trans hc⟩ (.inl ⟨?_, ?_, ?_⟩)
      · rw [hq]; exact fin_ne_bot q
      · rw [hq, shift_fin, fin_lt]; linarith
      · rw [hq, fin_lt]; exact h3
  · intro h
    by_contra hc
    have hc := not_le.mp hc
    rcases E_cases e.right with h' | h' | ⟨q, hq⟩
    · exact hr h'
    · rw [h'] at hc; exact absurd hc not_top_lt
    · rw [hq] at h hc
      obtain ⟨x, h1, h2, h3⟩ : ∃ x : ℚ, fin x ≤ d.right ∧ q < x ∧ x < q + δ := by
        rcases E_cases d.right with h'' | h'' | ⟨a, ha⟩
        · rw [h''] at hc; exact absurd hc not_lt_bot
        · exact ⟨q + δ / 2, h'' ▸ le_top, by linarith, by linarith⟩
        · rw [ha, fin_lt] at hc
          rcases le_total (q + δ / 2) a with h4 | h4
          · exact ⟨q + δ / 2, by rw [ha, fin_le]; exact h4, by linarith, by linarith⟩
          · exact ⟨a, by rw [ha], hc, by linarith⟩
      refine hn x ⟨d, hd, h.trans (fin_lt.mpr h2).le, h1⟩ (.inr ⟨?_, ?_, ?_⟩)
      · rw [hq]; exact fin_ne_top q
      · rw [hq, fin_lt]; exact h2
      · rw [hq, shift_fin, fin_lt]; linarith

theorem bounded_mem (s : List Intv) (h : ∀ e ∈ s, e.left ≠ ⊥ ∧ e.right ≠ ⊤) : ∃ lo hi : ℚ, ∀ x, Mem s x → lo ≤ x ∧ x ≤ hi := by
  induction s with
  | nil => exact ⟨0, 0, fun x ⟨e, he, _⟩ => by simp at he⟩
  | cons e t ih =>
    obtain ⟨lo, hi, hb⟩ := ih (fun x hx => h x (by simp [hx]))
    have he := h e (by simp)
    have key : ∃ a b : ℚ, ∀ x, e.has x → a ≤ x ∧ x ≤ b := by
      rcases E_cases e.left with h1 | h1 | ⟨a, h1⟩
      · exact absurd h1 he.1
      · exact ⟨0, 0, fun x hx => by have := hx.1; rw [h1] at this; exact absurd (top_le_iff.mp this) (fin_ne_top x)⟩
      · rcases E_cases e.right with h2 | h2 | ⟨b, h2⟩
        · exact ⟨0, 0, fun x hx => by have := hx.2; rw [h2] at this; exact absurd (le_bot_iff.mp this) (fin_ne_bot x)⟩
        · exact absurd h2 he.2
        · refine ⟨a, b, fun x hx => ?_⟩
          unfold Intv.has at hx
          rwa [h1, h2, fin_le, fin_le] at hx
    obtain ⟨a, b, hab⟩ := key
    refine ⟨min lo a, max hi b, ?_⟩
    rintro x ⟨f, hf, hx⟩
    rcases List.mem_cons.mp hf with rfl | hf
    · exact ⟨(min_le_right _ _).trans (hab x hx).1, (hab x hx).2.trans (le_max_right _ _)⟩
    · exact ⟨(min_le_left _ _).trans (hb x ⟨f, hf, hx⟩).1, (hb x ⟨f, hf, hx⟩).2.trans (le_max_left _ _)⟩

theorem Strict.ends_finite {s : List Intv} (hs : Strict s) {lo hi : ℚ} (hb : ∀ x, Mem s x → lo ≤ x ∧ x ≤ hi) :
    ∀ e ∈ s, e.left ≠ ⊥ ∧ e.right ≠ ⊤ := by
  intro e he
  have hE := hs.1 e he
  constructor
  · intro hbot
    obtain ⟨x, h1, h2⟩ : ∃ x : ℚ, x < lo ∧ fin x ≤ e.right := by
      rcases E_cases e.right with h | h | ⟨b, h⟩
      · exact absurd h hE.2.2
      · exact ⟨lo - 1, by linarith, h ▸ le_top⟩
      · exact ⟨min (lo - 1) b, (min_le_left _ _).trans_lt (by linarith), by rw [h, fin_le]; exact min_le_right _ _⟩
    exact absurd (hb x ⟨e, he, hbot ▸ bot_le, h2⟩).1 (not_le.mpr h1)
  · intro htop
    obtain ⟨x, h1, h2⟩ : ∃ x : ℚ, hi < x ∧ e.left ≤ fin x := by
      rcases E_cases e.left with h | h | ⟨b, h⟩
      · exact ⟨hi + 1, by linarith, h ▸ bot_le⟩
      · exact absurd h hE.2.1
      · exact ⟨max (hi + 1) b, lt_of_lt_of_le (by linarith) (le_max_left _ _), by rw [h, fin_le]; exact le_max_right _ _⟩
    exact absurd (hb x ⟨e, he, h2, htop ▸ le_top⟩).2 (not_le.mpr h1)

theorem bounds_mem {s : List Intv} (hs : Strict s) (h0 : s ≠ []) : ∃ e f, e ∈ s ∧ f ∈ s ∧ getBounds s = ⟨e.left, f.right⟩ := by
  unfold getBounds
  cases hh : s.head? with
  | none => rw [List.head?_eq_none_iff] at hh; exact absurd hh h0
  | some a =>
    cases hl : s.getLast? with
    | none => rw [List.getLast?_eq_none_iff] at hl; exact absurd hl h0
    | some b => exact ⟨a, b, List.mem_of_mem_head? hh, List.mem_of_getLast? hl, rfl⟩

/-- The set has finite bounds. -/
def FiniteSet (S : List IRange) : Prop := ∀ g ∈ S, g.lo ≠ none ∧ g.hi ≠ none

/-- All elements of the set are from `a` to `b`, and it has finite bounds. -/
def Within (S : List IRange) (a b : Int) : Prop := ∀ g ∈ S, ∃ x ∈ g.lo, ∃ y ∈ g.hi, a ≤ x ∧ y ≤ b

theorem convRange_finite {A B : ℚ} {g : IRange} (h : g.lo ≠ none ∧ g.hi ≠ none) :
    (convRange A B g).left ≠ ⊥ ∧ (convRange A B g).right ≠ ⊤ := by
  obtain ⟨lo, hi⟩ := g
  cases lo with
  | none => simp at h
  | some a =>
    cases hi with
    | none => simp at h
    | some b =>
      unfold convRange
      by_cases hA : A < 0
      · rw [if_pos hA]; exact ⟨fin_ne_bot _, fin_ne_top _⟩
      · rw [if_neg hA]; exact ⟨fin_ne_bot _, fin_ne_top _⟩

/-- The compiler handles every group of variables with a finite domain, except for one with `b <-> x = c` where the value of
the reference variable for `x = c` is not an integer. -/
theorem process_not_abort {nMax : Int} {dMax : ℚ} {dom : Doms} {ref : Nat} {views : List View} {enc : Option (Int × List Arg)}
    (G : Group dom ref views enc) {σ : Nat → Int} (hl : Linked views ref σ)
    (hfin : ∃ w ∈ views, ∃ S ∈ dom w.var, FiniteSet S)
    (henc : ∀ e ∈ enc, ∃ S ∈ dom ref, Within S e.1 (e.1 + e.2.length - 1))
    (heq : enc = none → ∀ w ∈ views, ∀ (c : Int) (f : Nat), .eqReif c f ∈ w.posts → ∃ k : ℤ, w.A * c + w.B = k) :
    process nMax dMax dom ref views enc ≠ .abort := by
  have hspec := decompose_spec G.viewOk G.doms hl
  have hAt : ∀ w ∈ views, At w.A w.B (σ ref) (σ w.var) := fun w hw => ⟨(G.coef w hw).1, (G.coef w hw).2, hl w hw⟩
  have hof : ∀ n o, (∃ st, o = some st) → Res.of n o ≠ .abort := by rintro n o ⟨st, rfl⟩; simp [Res.of]
  unfold process
  dsimp only
  generalize hs : decompose dom views = s at hspec
  by_cases h0 : s = []
  · rw [if_pos h0]; simp
  rw [if_neg h0]
  have hfe : ∀ e ∈ s, e.left ≠ ⊥ ∧ e.right ≠ ⊤ := by
    obtain ⟨w, hw, S, hS, hF⟩ := hfin
    obtain ⟨lo, hi, hb⟩ := bounded_mem (convertIntSet w.A w.B S) (by
      intro e he
      obtain ⟨g, hg, rfl, -⟩ := ((convertIntSet_spec (G.coef w hw).1 (G.coef w hw).2 (G.doms w hw S hS)).2 e).mp he
      exact convRange_finite (hF g hg))
    exact hspec.1.ends_finite (fun x hx => hb x (((hspec.2.2 x).mp hx w hw).1 S hS))
  obtain ⟨e1, e2, hm1, hm2, hgb⟩ := bounds_mem hspec.1 h0
  have hb : checkFiniteBounds s = true := by
    unfold checkFiniteBounds
    rw [hgb]
    simp only [Bool.and_eq_true, decide_eq_true_eq]
    exact ⟨⟨by simpa using h0, bot_lt_iff_ne_bot.mpr (hfe e1 hm1).1⟩, lt_top_iff_ne_top.mpr (hfe e2 hm2).2⟩
  rw [if_neg (by rw [hb, hspec.1.check]; decide)]
  have hfine : Fine (σ ref) s := hspec.1.fine hspec.2.1 hb
  cases enc with
  | some en =>
    obtain ⟨iMin, pp⟩ := en
    dsimp only
    have hcov : encCovers iMin pp s = true := by
      obtain ⟨w, hw, hv, hA, hB⟩ := G.ref
      obtain ⟨S, hS, hW⟩ := henc _ rfl
      have hin : ∀ x, Mem s x → (iMin : ℚ) ≤ x ∧ x ≤ iMin + pp.length - 1 := by
        intro x hx
        obtain ⟨e, he, hx⟩ := ((hspec.2.2 x).mp hx w hw).1 S (by rw [hv]; exact hS)
        obtain ⟨g, hg, rfl, -⟩ := ((convertIntSet_spec (G.coef w hw).1 (G.coef w hw).2 (G.doms w hw S (by rw [hv]; exact hS))).2 e).mp he
        obtain ⟨a, ha, b, hb, h1, h2⟩ := hW g hg
        rw [Option.mem_def] at ha hb
        rw [hA, hB, convRange_pos one_pos, ha, hb] at hx
        unfold Intv.has at hx
        dsimp only at hx
        rw [mul_one, mul_one, add_zero, add_zero, fin_le, fin_le, rndUp_eq (onGrid_int a), rndDown_eq (onGrid_int b),
          Int.ceil_intCast, Int.floor_intCast] at hx
        have h1 : (iMin : ℚ) ≤ a := by exact_mod_cast h1
        have h2 : (b : ℚ) ≤ iMin + pp.length - 1 := by exact_mod_cast h2
        exact ⟨h1.trans hx.1, hx.2.trans h2⟩
      obtain ⟨a, b, ha, hb', hab⟩ := hfine.fin e1 hm1
      obtain ⟨a', b', ha', hb'', hab'⟩ := hfine.fin e2 hm2
      have p1 := hin a ⟨e1, hm1, by rw [ha], by rw [hb', fin_le]; exact hab⟩
      have p2 := hin b' ⟨e2, hm2, by rw [ha', fin_le]; exact hab', by rw [hb'']⟩
      unfold encCovers
      rw [hgb, ha, hb'']
      simp only [Bool.and_eq_true, decide_eq_true_eq]
      show b' - a + 1 ≤ _ ∧ _ ≤ a
      exact ⟨by linarith [p1.1, p2.2], p1.1⟩
    rw [if_neg (by rw [hcov]; decide)]
    exact hof _ _ (implementPosts_some views (fun w hw => (G.coef w hw).1) (fun w hw p hp _ e he => ⟨_, rfl⟩) _)
  | none =>
    dsimp only
    have hstr : ∀ w ∈ views, ∀ p ∈ w.posts, p.flag? ≠ none → ∀ e ∈ targets w.A w.B p, ∀ d ∈ s,
        (d.left < e.left → d.right < e.left) ∧ (d.left ≤ e.right → d.right ≤ e.right) := by
      intro w hw p hp hf e he
      obtain ⟨f, hf⟩ := Option.ne_none_iff_exists'.mp hf
      have hc := G.sets w hw p hp
      have hne := (targets_ok (G.coef w hw).1 (G.coef w hw).2 hc).1 e he
      have hin : e ∈ convertIntSet w.A w.B p.ranges := by
        cases p with
        | eqReif c g =>
          obtain ⟨k, hk⟩ := heq rfl w hw c g hp
          unfold targets at he
          rw [List.mem_singleton] at he
          rw [rndIfBothInt_eq ((G.coef w hw).2.on c), hk] at he
          refine ((convertIntSet_spec (G.coef w hw).1 (G.coef w hw).2 (canon_ranges hc)).2 e).mpr
            ⟨⟨some c, some c⟩, by simp [Post.ranges], ?_, by rw [he]⟩
          have h3 : (c : ℚ) * w.A + w.B = k := by rw [mul_comm]; exact hk
          rw [he]
          unfold convRange
          dsimp only
          by_cases hA : w.A < 0
          all_goals (first | rw [if_pos hA] | rw [if_neg hA]); (dsimp only; rw [h3, rndUp_eq (onGrid_int k), rndDown_eq (onGrid_int k), Int.ceil_intCast, Int.floor_intCast])
        | leReif c g => exact he
        | geReif c g => exact he
        | setInReif S g => exact he
        | ne c => simp [Post.flag?] at hf
        | setIn S => simp [Post.flag?] at hf
      refine not_straddle hspec.1 (pos_delta w.A) hne.1 hne.2 (fun x hx => ?_)
      exact (keep_reif hf x).mp (((hspec.2.2 x).mp hx w hw).2 p hp) e hin
    by_cases h2 : 2 ≤ s.length
    · rw [if_pos h2]
      refine hof _ _ (implementPosts_some views (fun w hw => (G.coef w hw).1) (fun w hw p hp hf e he => ?_) _)
      refine intvFlags_some ?_ (.inl rfl)
      intro d hd
      unfold considerDenseEncoding at hd
      split at hd
      · rw [(split2Bits_eq hfine hspec.1).1] at hd
        obtain ⟨k, -, rfl⟩ := List.mem_map.mp hd
        exact ⟨id, id⟩
      · exact hstr w hw p hp hf e he d hd
    · rw [if_neg h2]
      refine hof _ _ (implementPosts_some views (fun w hw => (G.coef w hw).1) (fun w hw p hp hf e he => ?_) _)
      refine intvFlags_some (hstr w hw p hp hf e he) (.inr ?_)
      have : s.length ≠ 0 := by simpa using h0
      omega

end MZ.Mip
