import Verif.Mip.Process

/-! # The linear constraints mean what the domain constraints mean -/

namespace MZ.Mip

/-- A group of linked variables as the compiler has it: coefficients are not 0 and are multiples of one `1 / q` with `q` below
100000, sets are lists of separate ranges, one of the variables is the reference variable, no variable is there twice, and the
0-1 variables of the constraints and of the equality encoding have the domain `0..1` and are not in the group. -/
structure Group (dom : Doms) (ref : Nat) (views : List View) (enc : Option (Int × List Arg)) : Prop where
  coef : ∀ w ∈ views, w.A ≠ 0 ∧ Grid w.A w.B
  sets : ∀ w ∈ views, ∀ p ∈ w.posts, ∀ S ∈ p.set?, Canon S
  doms : ∀ w ∈ views, ∀ S ∈ dom w.var, Canon S
  ref : ∃ w ∈ views, w.var = ref ∧ w.A = 1 ∧ w.B = 0
  nodup : (views.map View.var).Nodup
  flags : ∀ w ∈ views, ∀ p ∈ w.posts, ∀ f ∈ p.flag?, dom f = some [⟨some 0, some 1⟩] ∧ f ∉ views.map View.var
  encArgs : ∀ e ∈ enc, ∀ a ∈ e.2, a = .const 0 ∨ ∃ x, a = .var x ∧ dom x = some [⟨some 0, some 1⟩] ∧ x ∉ views.map View.var

/-- A variable with the domain `0..1` that is not in the group. -/
def Group.F (dom : Doms) (views : List View) (g : Nat) : Prop := dom g = some [⟨some 0, some 1⟩] ∧ g ∉ views.map View.var

variable {dom : Doms} {ref : Nat} {views : List View} {enc : Option (Int × List Arg)}

theorem Group.viewOk (G : Group dom ref views enc) : ∀ w ∈ views, ViewOk w := fun w hw =>
  ⟨(G.coef w hw).1, (G.coef w hw).2, G.sets w hw⟩

theorem Group.args (G : Group dom ref views enc) : EncArgs enc := by
  intro e he a ha
  rcases G.encArgs e he a ha with h | ⟨x, h, -⟩
  · exact .inr h
  · exact .inl ⟨x, h⟩

theorem Group.flagDom (s : List Intv) : ∀ g, Group.F dom views g → FlagDom (makeRangeDomains s views dom) g := by
  intro g hg
  left
  unfold makeRangeDomains
  rw [ranges_other _ _ _ _ hg.2, hg.1]

/-- The value of the reference variable is in the decomposition. -/
theorem Group.orig (G : Group dom ref views enc) {σ : Nat → Int} (hl : Linked views ref σ)
    (hb : checkFiniteBounds (decompose dom views) = true) :
    (dom.Sat σ ∧ PostsHold views σ ↔ (makeRangeDomains (decompose dom views) views dom).Sat σ ∧
      Mem (decompose dom views) (σ ref) ∧ ∀ w ∈ views, ∀ p ∈ w.posts, p.flag? ≠ none → p.Holds σ (σ w.var)) := by
  have hspec := decompose_spec G.viewOk G.doms hl
  have hfine : Fine (σ ref) (decompose dom views) := hspec.1.fine hspec.2.1 hb
  have hmem := decompose_mem G.viewOk G.doms hl
  constructor
  · rintro ⟨hs, hp⟩
    have hM : Mem (decompose dom views) (σ ref) := hmem.mpr fun w hw => ⟨fun S hS => hs _ S hS, fun p hp' _ => hp w hw p hp'⟩
    refine ⟨fun x S hS => ?_, hM, fun w hw p hp' _ => hp w hw p hp'⟩
    have hbd := bounds_has hfine hM
    unfold makeRangeDomains at hS
    by_cases hx : x ∈ views.map View.var
    · obtain ⟨w, hw, rfl⟩ := List.mem_map.mp hx
      rw [ranges_var _ _ _ G.nodup w hw, Option.mem_some] at hS
      subst hS
      rw [inSet_range]
      exact range_has (G.coef w hw).1 (hl w hw) hbd.1 hbd.2
    · rw [ranges_other _ _ _ _ hx] at hS
      exact hs x S hS
  · rintro ⟨hs, hM, hr⟩
    have hm := hmem.mp hM
    refine ⟨fun x S hS => ?_, fun w hw p hp => ?_⟩
    · by_cases hx : x ∈ views.map View.var
      · obtain ⟨w, hw, rfl⟩ := List.mem_map.mp hx
        exact (hm w hw).1 S hS
      · refine hs x S ?_
        unfold makeRangeDomains
        rw [ranges_other _ _ _ _ hx]; exact hS
    · by_cases hf : p.flag? = none
      · exact (hm w hw).2 p hp hf
      · exact hr w hw p hp hf

/-- For a decomposition with one interval, the range of the reference variable is that interval. -/
theorem Group.single (G : Group dom ref views enc) {σ : Nat → Int} (hl : Linked views ref σ) {e : Intv}
    (hs : decompose dom views = [e]) (hb : checkFiniteBounds (decompose dom views) = true)
    (h : (makeRangeDomains (decompose dom views) views dom).Sat σ) : e.has (σ ref) := by
  have hspec := decompose_spec G.viewOk G.doms hl
  have hfine : Fine (σ ref) (decompose dom views) := hspec.1.fine hspec.2.1 hb
  obtain ⟨w, hw, hv, hA, hB⟩ := G.ref
  rw [hs] at h hfine
  have := h w.var _ (by unfold makeRangeDomains; exact ranges_var _ _ _ G.nodup w hw)
  rw [hA, hB, hv, inSet_range] at this
  obtain ⟨a, b, ha, hb, hab⟩ := hfine.fin e (by simp)
  have hE := hfine.ends e (by simp)
  have hg : getBounds [e] = ⟨fin a, fin b⟩ := by unfold getBounds; simp [ha, hb]
  rw [hg] at this
  change rndUp (min ((a - 0) / 1) ((b - 0) / 1)) ≤ _ ∧ _ ≤ rndDown (max ((a - 0) / 1) ((b - 0) / 1)) at this
  rw [sub_zero, sub_zero, div_one, div_one, min_eq_left hab, max_eq_right hab] at this
  rw [ha, hb] at hE
  rw [rndUp_eq (hE.1 a rfl).1, rndDown_eq (hE.2 b rfl).1] at this
  unfold Intv.has
  rw [ha, hb, fin_le, fin_le]
  exact ⟨Int.ceil_le.mp this.1, Int.le_floor.mp this.2⟩

theorem collects_enc {iMin : Int} {pp : List Arg} {σ z : Nat → Int} (he : EncHolds ref (some (iMin, pp)) σ)
    (ha : EncArgs (some (iMin, pp))) {flags : Bool} {s : List Intv} : Collects (some (iMin, pp)) flags s σ z (σ ref) := by
  intro e args hl hr h
  unfold collect at h
  rw [← Option.some.inj h]
  exact encFlags_spec he ha e hl hr

theorem collects_none {r : ℤ} {s : List Intv} (hf : Fine r s) {σ z : Nat → Int} {i0 : Nat} (h0 : i0 < s.length)
    (hh : (s[i0]'h0).has r) {flags : Bool} (hot : flags = true → OneHot s.length z i0) : Collects none flags s σ z r := by
  intro e args _ _ h
  exact intvFlags_spec hf h0 hh hot h

/-- A solution of the domain constraints is one of the linear constraints, and the other way round. -/
theorem process_ok {nMax : Int} {dMax : ℚ} (G : Group dom ref views enc) {dom' : Doms} {n : Nat} {outs : List Lin}
    (h : process nMax dMax dom ref views enc = .ok dom' n outs) {σ : Nat → Int} (hl : Linked views ref σ)
    (he : EncHolds ref enc σ) : dom.Sat σ ∧ PostsHold views σ ↔ dom'.Sat σ ∧ ∃ z, LinSat n outs σ z := by
  have hspec := decompose_spec G.viewOk G.doms hl
  have hfl : ∀ w ∈ views, ∀ p ∈ w.posts, ∀ f ∈ p.flag?, Group.F dom views f := G.flags
  unfold process at h
  dsimp only at h
  generalize hs : decompose dom views = s at h hspec
  by_cases h0 : s = []
  · rw [if_pos h0] at h; exact absurd h (by simp)
  rw [if_neg h0] at h
  by_cases h1 : checkFiniteBounds s = false ∨ checkDisjunctStrict s = false
  · rw [if_pos h1] at h; exact absurd h (by simp)
  rw [if_neg h1] at h
  have hb : checkFiniteBounds s = true := by
    rw [not_or] at h1; simpa using h1.1
  have hfine : Fine (σ ref) s := hspec.1.fine hspec.2.1 hb
  have horig := G.orig hl (hs ▸ hb)
  rw [hs] at horig
  rw [horig]
  cases enc with
  | some en =>
    obtain ⟨iMin, pp⟩ := en
    dsimp only at h
    by_cases h2 : encCovers iMin pp s = false
    · rw [if_pos h2] at h; exact absurd h (by simp)
    rw [if_neg h2] at h
    have h2 : encCovers iMin pp s = true := by simpa using h2
    have hv : ∀ x, Arg.var x ∈ pp → Group.F dom views x := by
      intro x hx
      rcases G.encArgs _ rfl _ hx with hc | ⟨y, hy, h1, h2⟩
      · exact absurd hc (by simp)
      · cases hy; exact ⟨h1, h2⟩
    have hsync := syncLoop_spec he G.args hv s hfine iMin _ (Group.flagDom s) le_rfl (by
      intro e hmem
      obtain ⟨a, b, ha, hb', hab⟩ := hfine.fin e hmem
      unfold encCovers at h2
      rw [Bool.and_eq_true, decide_eq_true_eq, decide_eq_true_eq] at h2
      have : toQ (getBounds s).left ≤ a := by
        unfold getBounds
        cases s with
        | nil => simp at hmem
        | cons x t =>
          obtain ⟨a', b', ha', hb', -⟩ := hfine.fin x (by simp)
          have hx : x.left ≤ e.left := by
            rcases List.mem_cons.mp hmem with rfl | hm
            · exact le_rfl
            · exact ((List.pairwise_cons.mp hfine.sorted).1 e hm).1
          rw [ha, ha', fin_le] at hx
          cases hlast : (x :: t).getLast? with
          | none => simp at hlast
          | some y =>
            dsimp only [List.head?_cons]
            rw [ha']; exact hx
      rw [hb']
      show iMin ≤ trunc (b + 1)
      have h3 := trunc_mono (x := (iMin : ℚ)) (y := b + 1) (by linarith [h2.2])
      rwa [trunc_int] at h3)
    cases hi : implementPosts (some (iMin, pp)) false s views (syncLoop iMin pp s iMin (makeRangeDomains s views dom), []) with
    | none => rw [hi] at h; exact absurd h (by simp [Res.of])
    | some st =>
      rw [hi] at h
      simp only [Res.of, Res.ok.injEq] at h
      obtain ⟨rfl, rfl, rfl⟩ := h
      have := (implementPosts_spec views G.viewOk hfl _ st hsync.1 hi).2 σ
      have hcol : ∀ z, Collects (some (iMin, pp)) false s σ z (σ ref) := fun z => collects_enc he G.args
      have hr := (he _ rfl).2
      have hnl : ¬ σ ref < iMin := by dsimp only at hr; omega
      have e1 : (syncLoop iMin pp s iMin (makeRangeDomains s views dom)).Sat σ ↔
          (makeRangeDomains s views dom).Sat σ ∧ Mem s (σ ref) := by
        rw [hsync.2]; simp only [hnl, false_or]
      have key : ∀ z, StSat st σ z ↔ ((makeRangeDomains s views dom).Sat σ ∧ Mem s (σ ref)) ∧
          ∀ w ∈ views, ∀ p ∈ w.posts, p.flag? ≠ none → p.Holds σ (σ w.var) := by
        intro z
        rw [this z ref hl (hcol z)]
        unfold StSat
        dsimp only
        rw [e1]
        simp
      rw [← and_assoc, ← key (fun _ => 0)]
      constructor
      · rintro ⟨a, b⟩; exact ⟨a, fun _ => 0, by simp, b⟩
      · rintro ⟨a, z, -, b⟩
        exact (key _).mpr ((key z).mp ⟨a, b⟩)
  | none =>
    dsimp only at h
    by_cases h2 : 2 ≤ s.length
    · rw [if_pos h2] at h
      have hs' : Fine (σ ref) (considerDenseEncoding nMax dMax s) ∧
          (Mem (considerDenseEncoding nMax dMax s) (σ ref) ↔ Mem s (σ ref)) := by
        unfold considerDenseEncoding
        split
        · exact split2Bits_fine hfine hspec.1
        · exact ⟨hfine, Iff.rfl⟩
      generalize considerDenseEncoding nMax dMax s = s' at h hs'
      cases hi : implementPosts none true s' views (makeRangeDomains s views dom, createDomainFlags ref s') with
      | none => rw [hi] at h; exact absurd h (by simp [Res.of])
      | some st =>
        rw [hi] at h
        simp only [Res.of, Res.ok.injEq] at h
        obtain ⟨rfl, rfl, rfl⟩ := h
        have hsp := implementPosts_spec views G.viewOk hfl _ st (Group.flagDom s) hi
        have hcol : ∀ z i0, OneHot s'.length z i0 → (∃ e ∈ s'[i0]?, e.has (σ ref)) → Collects none true s' σ z (σ ref) := by
          rintro z i0 hot ⟨e, hmem, hx⟩
          refine collects_none hs'.1 hot.1 ?_ (fun _ => hot)
          rw [Option.mem_def, List.getElem?_eq_some_iff] at hmem
          obtain ⟨_, rfl⟩ := hmem
          exact hx
        constructor
        · rintro ⟨hd, hM, hr⟩
          obtain ⟨e, hmem, hx⟩ := hs'.2.mpr hM
          obtain ⟨i0, hi0, rfl⟩ := List.getElem_of_mem hmem
          have hot : OneHot s'.length (fun i => if i = i0 then 1 else 0) i0 := ⟨hi0, fun _ _ => rfl⟩
          have hz : ∀ i < s'.length, (if i = i0 then (1 : Int) else 0) = 0 ∨ (if i = i0 then (1 : Int) else 0) = 1 := by
            intro i _; split <;> simp
          have hx' : ∃ e ∈ s'[i0]?, e.has (σ ref) := ⟨_, by rw [List.getElem?_eq_getElem hi0]; rfl, hx⟩
          have := (hsp.2 σ _ ref hl (hcol _ i0 hot hx')).mpr
            ⟨⟨hd, (createDomainFlags_spec hs'.1 hz).mpr ⟨i0, hot, hx'⟩⟩, hr⟩
          exact ⟨this.1, _, hz, this.2⟩
        · rintro ⟨hd, z, hz, hlin⟩
          obtain ⟨i0, hot, hx⟩ := (createDomainFlags_spec hs'.1 hz).mp (fun l hl => hlin l (hsp.1.2.1 l hl))
          have := (hsp.2 σ z ref hl (hcol z i0 hot hx)).mp ⟨hd, hlin⟩
          refine ⟨this.1.1, hs'.2.mp ?_, this.2⟩
          obtain ⟨e, hmem, hx⟩ := hx
          exact ⟨e, List.mem_of_getElem? hmem, hx⟩
    · rw [if_neg h2] at h
      obtain ⟨e, rfl⟩ : ∃ e, s = [e] := by
        match s, h0, h2 with
        | [e], _, _ => exact ⟨e, rfl⟩
        | a :: b :: t, _, h2 => exact absurd (by simp) h2
      cases hi : implementPosts none false [e] views (makeRangeDomains [e] views dom, []) with
      | none => rw [hi] at h; exact absurd h (by simp [Res.of])
      | some st =>
        rw [hi] at h
        simp only [Res.of, Res.ok.injEq] at h
        obtain ⟨rfl, rfl, rfl⟩ := h
        have hsp := implementPosts_spec views G.viewOk hfl _ st (Group.flagDom [e]) hi
        have hcol : ∀ z, e.has (σ ref) → Collects none false [e] σ z (σ ref) := fun z hx =>
          collects_none hfine (i0 := 0) (by simp) hx (by simp)
        have hm : Mem [e] (σ ref) ↔ e.has (σ ref) := by simp [Mem]
        rw [hm]
        constructor
        · rintro ⟨hd, hM, hr⟩
          have := (hsp.2 σ (fun _ => 0) ref hl (hcol _ hM)).mpr ⟨⟨hd, by simp⟩, hr⟩
          exact ⟨this.1, _, by simp, this.2⟩
        · rintro ⟨hd, z, -, hlin⟩
          have hM := G.single hl hs (hs ▸ hb) (by rw [hs]; exact hsp.1.1 σ hd)
          have := (hsp.2 σ z ref hl (hcol z hM)).mp ⟨hd, hlin⟩
          exact ⟨this.1.1, hM, this.2⟩

/-- A group that is found to be inconsistent has no solution. -/
theorem process_unsat {nMax : Int} {dMax : ℚ} (G : Group dom ref views enc)
    (h : process nMax dMax dom ref views enc = .unsat) {σ : Nat → Int} (hl : Linked views ref σ) :
    ¬ (dom.Sat σ ∧ PostsHold views σ) := by
  rintro ⟨hd, hp⟩
  have hmem := (decompose_mem G.viewOk G.doms hl).mpr fun w hw => ⟨fun S hS => hd _ S hS, fun p hp' _ => hp w hw p hp'⟩
  unfold process at h
  dsimp only at h
  generalize decompose dom views = s at h hmem
  by_cases h0 : s = []
  · subst h0; obtain ⟨e, he, -⟩ := hmem; simp at he
  · rw [if_neg h0] at h
    have hof : ∀ n o, Res.of n o ≠ .unsat := by intro n o; cases o <;> simp [Res.of]
    by_cases h1 : checkFiniteBounds s = false ∨ checkDisjunctStrict s = false
    · rw [if_pos h1] at h; simp at h
    · rw [if_neg h1] at h
      cases enc with
      | some en =>
        dsimp only at h
        by_cases h2 : encCovers en.1 en.2 s = false
        · rw [if_pos h2] at h; simp at h
        · rw [if_neg h2] at h; exact hof _ _ h
      | none =>
        dsimp only at h
        by_cases h2 : 2 ≤ s.length
        · rw [if_pos h2] at h; exact hof _ _ h
        · rw [if_neg h2] at h; exact hof _ _ h

end MZ.Mip
