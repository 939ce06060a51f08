import Verif.BoolFlat.Basic

/-! What binding, common subexpression elimination and the calls on flat elements mean. -/

namespace MZ
namespace BoolFlat

variable {I : Interp}

/-- What binding a value `W` to a target demands. -/
def tgtP (tgt : Tgt) (W : (Nat → Bool) → Bool) : (Nat → Bool) → Prop :=
  match tgt with
  | .fresh => fun _ => True
  | .tru => fun μ => W μ = true
  | .var v => fun μ => μ v = W μ

/-- The target is declared. -/
def tgtLt (n : Nat) : Tgt → Prop
  | .var v => v < n
  | _ => True

theorem tgtLt.mono {n m : Nat} {t : Tgt} (h : tgtLt n t) (hm : n ≤ m) : tgtLt m t := by
  cases t with
  | var v => exact Nat.lt_of_lt_of_le h hm
  | _ => trivial

/-- The target is not a given variable. -/
def Tgt.nv : Tgt → Prop
  | .var _ => False
  | _ => True

/-- A compilation step with a result: `W` is bound to the target, and the result has value `W`
(unless the target is a given variable). -/
structure Ok (I : Interp) (s : St) (r : St × FE) (tgt : Tgt) (W : (Nat → Bool) → Bool) : Prop where
  post : Post I s r.1 (tgtP tgt W)
  val : tgt.nv → Val I r.1 r.2 W

theorem tgtP_congr {tgt : Tgt} {W W' : (Nat → Bool) → Bool} {μ} (h : W μ = W' μ) :
    tgtP tgt W μ ↔ tgtP tgt W' μ := by
  cases tgt <;> simp [tgtP, h]

theorem Ok.congr {s : St} {r tgt W W'} (hi : Inv I s) (h : Ok I s r tgt W)
    (hw : ∀ μ, Canon I s μ → Roots I s μ → W μ = W' μ) : Ok I s r tgt W' :=
  ⟨h.post.congr fun μ hc hr => tgtP_congr (hw μ (h.post.canon hi hc) hr),
    fun hn => (h.val hn).congr fun μ hc hr => hw μ (h.post.canon hi hc) (h.post.roots hc hr)⟩

theorem Ok.after {s s1 : St} {r tgt W} (hi : Inv I s) (hp : Post I s s1 (fun _ => True))
    (h : Ok I s1 r tgt W) : Ok I s r tgt W :=
  ⟨(hp.trans hi h.post).congr fun _ _ _ => by simp, h.val⟩

theorem Ok.then {s : St} {r s' tgt W} (hi : Inv I s) (h : Ok I s r tgt W)
    (hp : Post I r.1 s' (fun _ => True)) : Ok I s (s', r.2) tgt W :=
  ⟨(h.post.trans hi hp).congr fun _ _ _ => by simp, fun hn => (h.val hn).mono h.post.inv hp⟩

/-! ### Following identifiers -/

theorem followN_val {s : St} {μ} (hc : Canon I s μ) (hr : Roots I s μ) :
    ∀ n v, μ (followN s n v) = μ v := by
  intro n
  induction n with
  | zero => intro v; rfl
  | succ n ih =>
    intro v
    unfold followN
    split
    · rename_i w h
      rw [ih w, val_rhs hc hr h]; rfl
    · rfl

theorem follow_val {s : St} {μ} (hc : Canon I s μ) (hr : Roots I s μ) (v : Nat) :
    μ (follow s v) = μ v := followN_val hc hr _ v

theorem followN_lt {s : St} (hi : Inv I s) : ∀ n v, v < s.decls.length →
    followN s n v < s.decls.length := by
  intro n
  induction n with
  | zero => intro v h; exact h
  | succ n ih =>
    intro v hv
    unfold followN
    split
    · rename_i w h
      exact ih w (hi.rhsLt h (true, .var w) (by simp [FC.occ]))
    · exact hv

theorem follow_lt {s : St} (hi : Inv I s) {v : Nat} (hv : v < s.decls.length) :
    follow s v < s.decls.length := followN_lt hi _ v hv

theorem followVal_val {s : St} {μ} (hc : Canon I s μ) (hr : Roots I s μ) (e : FE) :
    (followVal s e).val μ = e.val μ := by
  cases e with
  | lit b => rfl
  | var v =>
    simp only [followVal]
    split
    · rename_i b h
      show b = μ v
      rw [← follow_val hc hr v, val_rhs hc hr h]; rfl
    · exact follow_val hc hr v

theorem followVal_lt {s : St} (hi : Inv I s) {e : FE} (h : e.lt s.decls.length) :
    (followVal s e).lt s.decls.length := by
  cases e with
  | lit b => trivial
  | var v =>
    simp only [followVal]
    split
    · trivial
    · exact follow_lt hi h

theorem idVal_val {s : St} {μ} (hc : Canon I s μ) (hr : Roots I s μ) (v : Nat) :
    (idVal s v).val μ = μ v := by
  rw [← follow_val hc hr v]
  unfold idVal
  simp only
  split
  · rename_i b h
    rw [val_rhs hc hr h]; rfl
  · rfl
  · split
    · rename_i b h
      exact (val_dom hr h).symm
    · rfl

theorem idVal_lt {s : St} (hi : Inv I s) {v : Nat} (h : v < s.decls.length) :
    (idVal s v).lt s.decls.length := by
  unfold idVal
  simp only
  split
  · trivial
  · exact follow_lt hi h
  · split
    · trivial
    · exact follow_lt hi h

/-! ### Binding -/

theorem bindAnn_post {s : St} (hi : Inv I s) (b : BCtx) (v : Nat) :
    Post I s (bindAnn s b v) (fun _ => True) := by
  unfold bindAnn
  by_cases hb : b = .root
  · rw [if_pos hb]; exact Post.refl hi
  · rw [if_neg hb]
    have h1 := ann_post hi (follow s v) b
    simp only
    by_cases hf : follow s v = v
    · rw [if_pos hf]; exact h1
    · rw [if_neg hf]
      exact (h1.trans hi (ann_post h1.inv v b)).congr fun _ _ _ => by simp

theorem bindTru_ok {s : St} (hi : Inv I s) {w : Nat} (hw : w < s.decls.length) :
    Ok I s (bindTru s w) .tru (fun μ => μ w) := by
  unfold bindTru
  cases hd : s.domOf w with
  | none =>
    have h := setDom_post hi hw (b := true) (Or.inl hd)
    exact ⟨h, fun _ => ⟨trivial, fun μ hc hr => ((h.sem μ hc).1 hr).2.symm⟩⟩
  | some b =>
    cases b with
    | true =>
      exact ⟨(Post.refl hi).congr fun μ _ hr => by simp [tgtP, val_dom hr hd],
        fun _ => ⟨trivial, fun μ hc hr => (val_dom hr hd).symm⟩⟩
    | false =>
      have h := fail_post hi
      exact ⟨h.congr fun μ _ hr => by simp [tgtP, val_dom hr hd],
        fun _ => ⟨trivial, fun μ hc hr => ((h.sem μ hc).1 hr).2.elim⟩⟩

theorem bindFls_ok {s : St} (hi : Inv I s) {w : Nat} (hw : w < s.decls.length) :
    Ok I s (bindFls s w) .tru (fun μ => !(μ w)) := by
  unfold bindFls
  cases hd : s.domOf w with
  | none =>
    have h := setDom_post hi hw (b := false) (Or.inl hd)
    exact ⟨h.congr fun μ _ _ => by simp [tgtP],
      fun _ => ⟨trivial, fun μ hc hr => by rw [((h.sem μ hc).1 hr).2]; rfl⟩⟩
  | some b =>
    cases b with
    | false =>
      have h := setDom_post hi hw (b := false) (Or.inr hd)
      exact ⟨h.congr fun μ _ _ => by simp [tgtP],
        fun _ => ⟨trivial, fun μ hc hr => by rw [((h.sem μ hc).1 hr).2]; rfl⟩⟩
    | true =>
      have h := fail_post hi
      exact ⟨h.congr fun μ _ hr => by simp [tgtP, val_dom hr hd],
        fun _ => ⟨trivial, fun μ hc hr => ((h.sem μ hc).1 hr).2.elim⟩⟩

theorem rhsOf_setRhs {s : St} {v : Nat} {c : FC} : (setRhs s v c).domOf v = s.domOf v := by
  unfold St.domOf setRhs
  rw [upd_get]
  cases s.decls[v]? <;> simp

theorem bindLit_post {s : St} (hi : Inv I s) {v : Nat} (hv : v < s.decls.length) (b : Bool) :
    Post I s (bindLit s v b).1 (fun μ => μ v = b) := by
  unfold bindLit
  have hlt : (FC.alias (.lit b)).lt s.decls.length := by
    intro x hx; simp [FC.occ] at hx; subst hx; trivial
  cases hr : s.rhsOf v with
  | none =>
    have h1 := setRhs_post hi hv hr hlt
    have hlen : (setRhs s v (.alias (.lit b))).decls.length = s.decls.length := upd_len ..
    simp only
    cases hd : s.domOf v with
    | none =>
      have h2 := setDom_post h1.inv (v := v) (by rw [hlen]; exact hv) (b := b)
        (Or.inl (by rw [rhsOf_setRhs]; exact hd))
      exact (h1.trans hi h2).congr fun μ _ _ => by simp [FC.val, FE.val]
    | some b' =>
      simp only
      by_cases hbb : b' = b
      · rw [if_pos hbb]; exact h1
      · rw [if_neg hbb]
        refine (h1.trans hi (fail_post h1.inv)).congr fun μ _ hrt => ?_
        have := val_dom hrt hd
        constructor
        · intro h; exact h.2.elim
        · intro h; exact (hbb (this ▸ h)).elim
  | some c =>
    simp only
    cases hd : s.domOf v with
    | none => exact setDom_post hi hv (Or.inl hd)
    | some b' =>
      simp only
      by_cases hbb : b' = b
      · rw [if_pos hbb]
        subst hbb
        exact (Post.refl hi).congr fun μ _ hrt => by simp [val_dom hrt hd]
      · rw [if_neg hbb]
        refine (fail_post hi).congr fun μ _ hrt => ?_
        have := val_dom hrt hd
        constructor
        · intro h; exact h.elim
        · intro h; exact (hbb (this ▸ h)).elim

theorem bindVar_post {s : St} (hi : Inv I s) {v w : Nat} (hv : v < s.decls.length)
    (hw : w < s.decls.length) : Post I s (bindVar s v w).1 (fun μ => μ v = μ w) := by
  unfold bindVar
  cases hr : s.rhsOf v with
  | none =>
    simp only
    by_cases hvw : v = w
    · rw [if_pos hvw]; subst hvw
      exact (Post.refl hi).congr fun _ _ _ => by simp
    · rw [if_neg hvw]
      exact setRhs_post hi hv hr (by intro x hx; simp [FC.occ] at hx; subst hx; exact hw)
  | some c =>
    simp only
    split
    · rename_i h
      refine (Post.refl hi).congr fun μ hc hrt => ?_
      simp only [true_iff]
      rcases h with h | h | h
      · rw [h]
      · subst h; exact val_rhs hc hrt hr
      · exact (val_rhs hc hrt h).symm
    · exact addCon_post hi _ trivial

theorem bindPos_ok {s : St} (hi : Inv I s) (b : BCtx) {tgt : Tgt}
    (ht : tgtLt s.decls.length tgt) {e : FE} (he : e.lt s.decls.length) :
    Ok I s (bindPos s b tgt e) tgt (fun μ => e.val μ) := by
  unfold bindPos
  cases e with
  | lit x =>
    cases tgt with
    | fresh => exact ⟨Post.refl hi, fun _ => Val.self trivial⟩
    | tru =>
      cases x with
      | true => exact ⟨(Post.refl hi).congr fun _ _ _ => by simp [tgtP, FE.val],
          fun _ => ⟨trivial, fun _ _ _ => rfl⟩⟩
      | false =>
        have h := fail_post hi
        exact ⟨h.congr fun μ _ hr => by simp [tgtP, FE.val],
          fun _ => ⟨trivial, fun μ hc hr => ((h.sem μ hc).1 hr).2.elim⟩⟩
    | var v => exact ⟨bindLit_post hi ht x, fun h => h.elim⟩
  | var u =>
    have h1 := bindAnn_post hi b u
    have hw : follow s u < (bindAnn s b u).decls.length :=
      Nat.lt_of_lt_of_le (follow_lt hi he) h1.ext.len
    have hval : ∀ μ, Canon I s μ → Roots I s μ → μ (follow s u) = FE.val μ (.var u) :=
      fun μ hc hr => follow_val hc hr u
    refine Ok.congr hi (W := fun μ => μ (follow s u)) ?_ hval
    refine Ok.after hi h1 ?_
    cases tgt with
    | fresh => exact ⟨Post.refl h1.inv, fun _ => ⟨hw, fun _ _ _ => rfl⟩⟩
    | tru => exact bindTru_ok h1.inv hw
    | var v => exact ⟨bindVar_post h1.inv (Nat.lt_of_lt_of_le ht h1.ext.len) hw, fun h => h.elim⟩

theorem bindCall_ok {s : St} (hi : Inv I s) (b : BCtx) {tgt : Tgt}
    (ht : tgtLt s.decls.length tgt) {c : FC} (hc : c.lt s.decls.length) :
    Post I s (bindCall s b tgt c).1 (tgtP tgt (fun μ => c.val I μ)) ∧
      Val I (bindCall s b tgt c).1 (bindCall s b tgt c).2 (fun μ => c.val I μ) := by
  unfold bindCall
  cases tgt with
  | fresh =>
    have := newDecl_post hi hc b
    exact ⟨this.1, this.2⟩
  | tru =>
    have h := addCon_post hi (.call c) trivial
    exact ⟨h, trivial, fun μ hcn hr => (((h.sem μ hcn).1 hr).2).symm⟩
  | var v =>
    simp only
    cases hr : s.rhsOf v with
    | none =>
      have h := setRhs_post hi ht hr hc
      exact ⟨h, Nat.lt_of_lt_of_le ht h.ext.len, fun μ hcn hrt => ((h.sem μ hcn).1 hrt).2⟩
    | some c' =>
      have h := addCon_post hi (.reif (s.hr && decide ((s.decls[v]?).bind (·.ann) = some .pos)
        && !c.noHalf) c v) (fun h => by
          simp only [Bool.and_eq_true] at h; exact h.1.1)
      exact ⟨h, Nat.lt_of_lt_of_le ht h.ext.len, fun μ hcn hrt => ((h.sem μ hcn).1 hrt).2⟩

/-! ### Common subexpressions -/

theorem cseWalk_post (new : BCtx) : ∀ n first st (s : St), Inv I s →
    Post I s (cseWalk new n first st s) (fun _ => True) := by
  intro n
  induction n with
  | zero => intro _ _ s hi; exact Post.refl hi
  | succ n ih =>
    intro first st s hi
    cases st with
    | nil => exact Post.refl hi
    | cons e st =>
      cases e with
      | lit b => exact ih _ _ s hi
      | var v =>
        unfold cseWalk
        split
        · exact ih _ _ s hi
        · exact ih _ _ s hi
        · exact ih _ _ s hi
        · simp only
          split
          · have h1 := ann_post hi v (if first = true ∧ new = .root then .root else .mix)
            exact (h1.trans hi (ih _ _ _ h1.inv)).congr fun _ _ _ => by simp
          · exact ih _ _ s hi

theorem cseChange_post {s : St} (hi : Inv I s) (e : FE) (new : BCtx) :
    Post I s (cseChange s e new) (fun _ => True) := cseWalk_post new _ _ _ s hi

theorem post_ok {s : St} (hi : Inv I s) (b : BCtx) {tgt : Tgt}
    (ht : tgtLt s.decls.length tgt) {c : FC} (hc : c.lt s.decls.length) :
    Ok I s (post s b tgt c) tgt (fun μ => c.val I μ) := by
  unfold post
  cases hf : cseFind s c with
  | some e =>
    have hm := hi.cse _ (cseFind_mem hf)
    have h1 := cseChange_post hi e b
    have h2 := bindPos_ok h1.inv b (ht.mono h1.ext.len) (hm.1.mono h1.ext.len)
    exact (h2.after hi h1).congr hi fun μ hcn hr => (hm.2 μ hcn hr).symm
  | none =>
    obtain ⟨h1, h2⟩ := bindCall_ok hi b ht hc
    have h3 := cseInsert_post h1.inv h2
    exact ⟨(h1.trans hi h3).congr fun _ _ _ => by simp, fun _ => h2.mono h1.inv h3⟩

theorem not_lt {n : Nat} {e : FE} (h : e.lt n) : (FC.not_ e).lt n := by
  intro x hx; simp [FC.occ] at hx; subst hx; exact h

theorem notCall_ok {s : St} (hi : Inv I s) {tgt : Tgt}
    (ht : tgtLt s.decls.length tgt) {e : FE} (he : e.lt s.decls.length) :
    Ok I s (notCall s tgt e) tgt (fun μ => !(e.val μ)) := by
  unfold notCall
  cases e with
  | lit b => exact bindPos_ok hi .root ht trivial
  | var v =>
    have h1 := bindPos_ok hi .mix (tgt := .fresh) trivial (idVal_lt hi he)
    have hv := h1.val trivial
    have h2 := post_ok h1.post.inv .root (ht.mono h1.post.ext.len) (not_lt hv.lt)
    have h2' := h2.congr (W' := fun μ => !(μ v)) h1.post.inv fun μ hc hr => by
      show (!(FE.val μ _)) = _
      rw [hv.val μ hc hr, idVal_val (h1.post.canon hi hc) (h1.post.roots hc hr)]
    exact h2'.after hi h1.post

theorem bindFE_ok {s : St} (hi : Inv I s) (c : Ctx) {tgt : Tgt}
    (ht : tgtLt s.decls.length tgt) {e : FE} (he : e.lt s.decls.length) :
    Ok I s (bindFE s c tgt e) tgt (fun μ => e.val μ != c.neg) := by
  unfold bindFE
  cases hn : c.neg with
  | false => exact (bindPos_ok hi c.b ht he).congr hi fun μ _ _ => by simp
  | true =>
    cases e with
    | lit b =>
      have h := bindPos_ok hi .root ht (e := .lit (!b)) trivial
      refine h.congr hi ?_
      intro μ _ _
      cases b <;> rfl
    | var u =>
      have h1 := bindAnn_post hi c.b u
      have hw : follow s u < (bindAnn s c.b u).decls.length :=
        Nat.lt_of_lt_of_le (follow_lt hi he) h1.ext.len
      refine Ok.congr hi (W := fun μ => !(μ (follow s u))) ?_
        fun μ hc hr => by simp [FE.val, follow_val hc hr u]
      refine Ok.after hi h1 ?_
      cases tgt with
      | tru => exact bindFls_ok h1.inv hw
      | fresh => exact notCall_ok h1.inv (tgt := .fresh) trivial hw
      | var v => exact notCall_ok h1.inv (ht.mono h1.ext.len) hw

theorem flatId_ok {s : St} (hi : Inv I s) (c : Ctx) {tgt : Tgt}
    (ht : tgtLt s.decls.length tgt) {v : Nat} (hv : v < s.decls.length) :
    Ok I s (flatId s c tgt v) tgt (fun μ => μ v != c.neg) :=
  (bindFE_ok hi c ht (idVal_lt hi hv)).congr hi fun μ hc hr => by
    simp only [idVal_val hc hr v]

theorem flatFE_ok {s : St} (hi : Inv I s) (c : Ctx) {tgt : Tgt}
    (ht : tgtLt s.decls.length tgt) {e : FE} (he : e.lt s.decls.length) :
    Ok I s (flatFE s c tgt e) tgt (fun μ => e.val μ != c.neg) := by
  cases e with
  | lit b => exact bindFE_ok hi c ht trivial
  | var v => exact flatId_ok hi c ht he

theorem postPred_ok {s : St} (hi : Inv I s) (c : Ctx) {tgt : Tgt}
    (ht : tgtLt s.decls.length tgt) {f : FC} (hf : f.lt s.decls.length) :
    Ok I s (postPred s c tgt f) tgt (fun μ => f.val I μ != c.neg) := by
  unfold postPred
  cases hn : c.neg with
  | false => exact (post_ok hi c.b ht hf).congr hi fun μ _ _ => by simp
  | true =>
    have h1 := post_ok hi .mix (tgt := .fresh) trivial hf
    have hv := h1.val trivial
    have h2 := post_ok h1.post.inv .root (ht.mono h1.post.ext.len) (not_lt hv.lt)
    have h2' := h2.congr (W' := fun μ => f.val I μ != true) h1.post.inv fun μ hc hr => by
      show (!(FE.val μ _)) = _
      rw [hv.val μ hc hr]; simp
    exact h2'.after hi h1.post

/-! ### Duplicates and merging -/

theorem mem_insertFE (x y : FE) : ∀ ys, y ∈ insertFE x ys ↔ y = x ∨ y ∈ ys := by
  intro ys
  induction ys with
  | nil => simp [insertFE]
  | cons z zs ih =>
    unfold insertFE
    split
    · simp
    · simp only [List.mem_cons, ih]
      constructor
      · rintro (h | h | h) <;> simp [h]
      · rintro (h | h | h) <;> simp [h]

theorem mem_sortFE (y : FE) : ∀ xs, y ∈ sortFE xs ↔ y ∈ xs := by
  intro xs
  induction xs with
  | nil => simp [sortFE]
  | cons x xs ih => simp [sortFE, mem_insertFE, ih]

theorem dedupFE_none {identity : Bool} : ∀ (xs : List FE) prev,
    dedupFE identity prev xs = none → FE.lit (!identity) ∈ xs := by
  intro xs
  induction xs with
  | nil => intro prev h; cases h
  | cons x xs ih =>
    intro prev h
    unfold dedupFE at h
    split at h
    · exact List.mem_cons_of_mem _ (ih _ h)
    · cases x with
      | lit b =>
        simp only at h
        split at h
        · exact List.mem_cons_of_mem _ (ih _ h)
        · rename_i hb
          have : b = !identity := by cases b <;> cases identity <;> simp_all
          rw [this]; exact List.mem_cons_self
      | var v =>
        simp only [Option.map_eq_none_iff] at h
        exact List.mem_cons_of_mem _ (ih _ h)

theorem dedupFE_some {identity : Bool} : ∀ (xs : List FE) prev ys,
    dedupFE identity prev xs = some ys →
    (∀ y ∈ ys, y ∈ xs) ∧
      (∀ x ∈ xs, x ∈ ys ∨ x = .lit identity ∨ prev = some x) := by
  intro xs
  induction xs with
  | nil => intro prev ys h; cases h; simp
  | cons x xs ih =>
    intro prev ys h
    unfold dedupFE at h
    split at h
    · rename_i hp
      obtain ⟨h1, h2⟩ := ih _ _ h
      refine ⟨fun y hy => List.mem_cons_of_mem _ (h1 y hy), fun z hz => ?_⟩
      rcases List.mem_cons.1 hz with hz | hz
      · subst hz; exact Or.inr (Or.inr hp)
      · exact h2 z hz
    · cases x with
      | lit b =>
        simp only at h
        split at h
        · rename_i hb
          obtain ⟨h1, h2⟩ := ih _ _ h
          refine ⟨fun y hy => List.mem_cons_of_mem _ (h1 y hy), fun z hz => ?_⟩
          subst hb
          rcases List.mem_cons.1 hz with hz | hz
          · exact Or.inr (Or.inl hz)
          · rcases h2 z hz with h | h | h
            · exact Or.inl h
            · exact Or.inr (Or.inl h)
            · cases h; exact Or.inr (Or.inl rfl)
        · cases h
      | var v =>
        simp only [Option.map_eq_some_iff] at h
        obtain ⟨zs, h, hzs⟩ := h
        subst hzs
        obtain ⟨h1, h2⟩ := ih _ _ h
        refine ⟨fun y hy => ?_, fun z hz => ?_⟩
        · rcases List.mem_cons.1 hy with hy | hy
          · subst hy; exact List.mem_cons_self
          · exact List.mem_cons_of_mem _ (h1 y hy)
        · rcases List.mem_cons.1 hz with hz | hz
          · subst hz; exact Or.inl List.mem_cons_self
          · rcases h2 z hz with h | h | h
            · exact Or.inl (List.mem_cons_of_mem _ h)
            · exact Or.inr (Or.inl h)
            · cases h; exact Or.inl List.mem_cons_self

theorem removeDups_none {s : St} {identity : Bool} {xs : List FE}
    (h : removeDups s identity xs = none) : ∃ x ∈ xs, followVal s x = .lit (!identity) := by
  have := dedupFE_none _ _ h
  rw [mem_sortFE] at this
  simpa using this

theorem removeDups_some {s : St} {identity : Bool} {xs ys : List FE}
    (h : removeDups s identity xs = some ys) :
    (∀ y ∈ ys, ∃ x ∈ xs, followVal s x = y) ∧
      (∀ x ∈ xs, followVal s x ∈ ys ∨ followVal s x = .lit identity) := by
  obtain ⟨h1, h2⟩ := dedupFE_some _ _ _ h
  refine ⟨fun y hy => ?_, fun x hx => ?_⟩
  · have := h1 y hy
    rw [mem_sortFE] at this
    simpa using this
  · have := h2 (followVal s x) (by rw [mem_sortFE]; exact List.mem_map_of_mem hx)
    simpa using this

theorem containsDups_true : ∀ n (xs ys : List FE), containsDups n xs ys = true →
    ∃ x, x ∈ xs ∧ x ∈ ys := by
  intro n
  induction n with
  | zero => intro xs ys h; cases h
  | succ n ih =>
    intro xs ys h
    cases xs with
    | nil => cases h
    | cons x xs =>
      cases ys with
      | nil => cases h
      | cons y ys =>
        unfold containsDups at h
        split at h
        · rename_i hxy; subst hxy; exact ⟨x, by simp, by simp⟩
        · split at h
          · obtain ⟨z, h1, h2⟩ := ih _ _ h; exact ⟨z, List.mem_cons_of_mem _ h1, h2⟩
          · obtain ⟨z, h1, h2⟩ := ih _ _ h; exact ⟨z, h1, List.mem_cons_of_mem _ h2⟩

/-- The value of a clause. -/
def clauseVal (μ : Nat → Bool) (ps ns : List FE) : Bool :=
  ps.any (FE.val μ) || ns.any (fun e => !(FE.val μ e))

theorem clauseVal_iff {μ ps ns} : clauseVal μ ps ns = true ↔
    (∃ x ∈ ps, FE.val μ x = true) ∨ (∃ x ∈ ns, FE.val μ x = false) := by
  simp [clauseVal, List.any_eq_true]

theorem bool_ext {a b : Bool} (h : a = true ↔ b = true) : a = b := by
  cases a <;> cases b <;> simp_all

theorem removeDups_any {s : St} {xs ys : List FE} (h : removeDups s false xs = some ys) {μ}
    (hc : Canon I s μ) (hr : Roots I s μ) :
    (∃ y ∈ ys, FE.val μ y = true) ↔ (∃ x ∈ xs, FE.val μ x = true) := by
  obtain ⟨h1, h2⟩ := removeDups_some h
  constructor
  · rintro ⟨y, hy, hv⟩
    obtain ⟨x, hx, hxy⟩ := h1 y hy
    exact ⟨x, hx, by rw [← followVal_val hc hr x, hxy]; exact hv⟩
  · rintro ⟨x, hx, hv⟩
    rcases h2 x hx with h | h
    · exact ⟨_, h, by rw [followVal_val hc hr x]; exact hv⟩
    · rw [← followVal_val hc hr x, h] at hv; cases hv

theorem removeDups_all {s : St} {xs ys : List FE} (h : removeDups s true xs = some ys) {μ}
    (hc : Canon I s μ) (hr : Roots I s μ) :
    (∃ y ∈ ys, FE.val μ y = false) ↔ (∃ x ∈ xs, FE.val μ x = false) := by
  obtain ⟨h1, h2⟩ := removeDups_some h
  constructor
  · rintro ⟨y, hy, hv⟩
    obtain ⟨x, hx, hxy⟩ := h1 y hy
    exact ⟨x, hx, by rw [← followVal_val hc hr x, hxy]; exact hv⟩
  · rintro ⟨x, hx, hv⟩
    rcases h2 x hx with h | h
    · exact ⟨_, h, by rw [followVal_val hc hr x]; exact hv⟩
    · rw [← followVal_val hc hr x, h] at hv; cases hv

theorem removeDups_lt {s : St} (hi : Inv I s) {b : Bool} {xs ys : List FE}
    (h : removeDups s b xs = some ys) (hx : ∀ x ∈ xs, x.lt s.decls.length) :
    ∀ y ∈ ys, y.lt s.decls.length := by
  intro y hy
  obtain ⟨x, h1, h2⟩ := (removeDups_some h).1 y hy
  rw [← h2]; exact followVal_lt hi (hx x h1)

/-! ### Expanding clauses -/

/-- All elements of the expansion are declared. -/
def Exp.lt (n : Nat) (x : Exp) : Prop :=
  (∀ e ∈ x.ps, e.lt n) ∧ (∀ e ∈ x.ns, e.lt n) ∧ (∀ e ∈ x.pa, e.lt n) ∧ (∀ e ∈ x.na, e.lt n)

theorem callOf_val {s : St} {μ} (hc : Canon I s μ) (hr : Roots I s μ) {e : FE} {c : FC}
    (h : callOf s e = some c) : e.val μ = c.val I μ := by
  cases e with
  | lit b => cases h
  | var v =>
    show μ v = _
    rw [← follow_val hc hr v]
    exact val_rhs hc hr h

theorem callOf_lt {s : St} (hi : Inv I s) {e : FE} {c : FC} (h : callOf s e = some c) :
    c.lt s.decls.length := by
  cases e with
  | lit b => cases h
  | var v => exact hi.rhsLt h

theorem lit_val (μ : Nat → Bool) (b : Bool) : FE.val μ (.lit b) = b := rfl

theorem posMerge_val {c : FC} {p n : List FE} (h : posMerge (some c) = some (p, n)) (μ) :
    c.val I μ = clauseVal μ p n := by
  unfold posMerge at h
  split at h <;> rename_i heq <;> first | cases heq | skip
  all_goals first | cases h | skip
  all_goals
    simp [clauseVal, FC.val, lit_val]

theorem negMerge_val {c : FC} {p n : List FE} (h : negMerge (some c) = some (p, n)) (μ) :
    (!(c.val I μ)) = clauseVal μ p n := by
  unfold negMerge at h
  split at h <;> rename_i heq <;> first | cases heq | skip
  all_goals first | cases h | skip
  all_goals
    simp [clauseVal, FC.val, lit_val, List.not_all_eq_any_not]

theorem posMerge_occ {c : FC} {p n : List FE} (h : posMerge (some c) = some (p, n)) :
    (∀ e ∈ p, (true, e) ∈ c.occ) ∧ (∀ e ∈ n, (false, e) ∈ c.occ) := by
  unfold posMerge at h
  split at h <;> simp_all [FC.occ]
  all_goals (obtain ⟨rfl, rfl⟩ := h; simp)

theorem negMerge_occ {c : FC} {p n : List FE} (h : negMerge (some c) = some (p, n)) :
    (∀ e ∈ p, (false, e) ∈ c.occ) ∧ (∀ e ∈ n, (true, e) ∈ c.occ) := by
  unfold negMerge at h
  split at h <;> simp_all [FC.occ]
  all_goals (obtain ⟨rfl, rfl⟩ := h; simp)

/-- The value of the disjunction represented by an expansion. -/
def Exp.val (μ : Nat → Bool) (x : Exp) : Bool := clauseVal μ (x.pa ++ x.ps) (x.na ++ x.ns)

theorem Exp.val_iff {μ} {x : Exp} : x.val μ = true ↔
    ((∃ e ∈ x.pa, FE.val μ e = true) ∨ (∃ e ∈ x.ps, FE.val μ e = true)) ∨
    ((∃ e ∈ x.na, FE.val μ e = false) ∨ (∃ e ∈ x.ns, FE.val μ e = false)) := by
  unfold Exp.val
  rw [clauseVal_iff]
  simp only [List.mem_append, or_and_right, exists_or]

end BoolFlat
end MZ
