import Verif.BoolFlat.Bind

/-! What clauses, conjunctions and lists of flat elements mean. -/

namespace MZ
namespace BoolFlat

variable {I : Interp}

theorem or_pos {a p q b n m : Prop} :
    (a ∨ (p ∨ q)) ∨ (b ∨ (n ∨ m)) ↔ (a ∨ ((p ∨ n) ∨ q)) ∨ (b ∨ m) := by
  constructor
  · rintro ((h | h | h) | (h | h | h)) <;> simp [h]
  · rintro ((h | (h | h) | h) | (h | h)) <;> simp [h]

theorem or_neg {a p q b n m : Prop} :
    (a ∨ (p ∨ q)) ∨ (b ∨ (n ∨ m)) ↔ (a ∨ q) ∨ (b ∨ ((p ∨ n) ∨ m)) := by
  constructor
  · rintro ((h | h | h) | (h | h | h)) <;> simp [h]
  · rintro ((h | h) | (h | (h | h) | h)) <;> simp [h]

theorem posStep_ok {s : St} (hi : Inv I s) {x : Exp} {cur : FE} {ps : List FE}
    (hx : x.ps = cur :: ps) (hl : x.lt s.decls.length) :
    (posStep s x cur ps).lt s.decls.length ∧
      ∀ μ, Canon I s μ → Roots I s μ → (posStep s x cur ps).val μ = x.val μ := by
  obtain ⟨h1, h2, h3, h4⟩ := hl
  have hcur : cur.lt s.decls.length := h1 cur (by rw [hx]; exact List.mem_cons_self)
  have hps : ∀ e ∈ ps, e.lt s.decls.length := fun e he => h1 e (by
    rw [hx]; exact List.mem_cons_of_mem _ he)
  unfold posStep
  split
  · refine ⟨⟨hps, h2, ?_, h4⟩, fun μ _ _ => bool_ext ?_⟩
    · intro e he
      rcases List.mem_append.1 he with h | h
      · exact h3 e h
      · rw [List.mem_singleton.1 h]; exact hcur
    · rw [Exp.val_iff, Exp.val_iff, hx]
      simp only [List.mem_append, List.mem_cons, or_and_right, exists_or, exists_eq_left,
        List.not_mem_nil, or_false, or_assoc, false_and, exists_false]
  · split
    · rename_i p n hm
      cases hco : callOf s cur with
      | none => rw [hco] at hm; cases hm
      | some c =>
        rw [hco] at hm
        have hclt := callOf_lt hi hco
        obtain ⟨ho1, ho2⟩ := posMerge_occ hm
        refine ⟨⟨?_, ?_, h3, h4⟩, fun μ hc hr => bool_ext ?_⟩
        · intro e he
          rcases List.mem_append.1 he with h | h
          · exact hclt _ (ho1 e (List.mem_reverse.1 h))
          · exact hps e h
        · intro e he
          rcases List.mem_append.1 he with h | h
          · exact hclt _ (ho2 e (List.mem_reverse.1 h))
          · exact h2 e h
        · have hv : FE.val μ cur = clauseVal μ p n := by
            rw [callOf_val hc hr hco, posMerge_val hm]
          have hv' : FE.val μ cur = true ↔
              (∃ x ∈ p, FE.val μ x = true) ∨ (∃ x ∈ n, FE.val μ x = false) := by
            rw [hv, clauseVal_iff]
          rw [Exp.val_iff, Exp.val_iff, hx]
          simp only [List.mem_append, List.mem_cons, or_and_right, exists_or, exists_eq_left,
            List.mem_reverse, hv']
          exact or_pos
    · split
      · rename_i hd
        refine ⟨⟨hps, h2, h3, h4⟩, fun μ hc hr => bool_ext ?_⟩
        cases cur with
        | lit b => simp [dropDom] at hd
        | var v =>
          have : FE.val μ (.var v) = false := val_dom hr (by simpa [dropDom] using hd)
          rw [Exp.val_iff, Exp.val_iff, hx]
          simp only [List.mem_cons, or_and_right, exists_or, exists_eq_left, this]
          simp
      · refine ⟨⟨hps, h2, ?_, h4⟩, fun μ _ _ => bool_ext ?_⟩
        · intro e he
          rcases List.mem_append.1 he with h | h
          · exact h3 e h
          · rw [List.mem_singleton.1 h]; exact hcur
        · rw [Exp.val_iff, Exp.val_iff, hx]
          simp only [List.mem_append, List.mem_cons, or_and_right, exists_or, exists_eq_left,
            List.not_mem_nil, or_false, or_assoc, false_and, exists_false]

theorem negStep_ok {s : St} (hi : Inv I s) {x : Exp} {cur : FE} {ns : List FE}
    (hx : x.ns = cur :: ns) (hl : x.lt s.decls.length) :
    (negStep s x cur ns).lt s.decls.length ∧
      ∀ μ, Canon I s μ → Roots I s μ → (negStep s x cur ns).val μ = x.val μ := by
  obtain ⟨h1, h2, h3, h4⟩ := hl
  have hcur : cur.lt s.decls.length := h2 cur (by rw [hx]; exact List.mem_cons_self)
  have hns : ∀ e ∈ ns, e.lt s.decls.length := fun e he => h2 e (by
    rw [hx]; exact List.mem_cons_of_mem _ he)
  unfold negStep
  split
  · refine ⟨⟨h1, hns, h3, ?_⟩, fun μ _ _ => bool_ext ?_⟩
    · intro e he
      rcases List.mem_append.1 he with h | h
      · exact h4 e h
      · rw [List.mem_singleton.1 h]; exact hcur
    · rw [Exp.val_iff, Exp.val_iff, hx]
      simp only [List.mem_append, List.mem_cons, or_and_right, exists_or, exists_eq_left,
        List.not_mem_nil, or_false, or_assoc, false_and, exists_false]
  · split
    · rename_i p n hm
      cases hco : callOf s cur with
      | none => rw [hco] at hm; cases hm
      | some c =>
        rw [hco] at hm
        have hclt := callOf_lt hi hco
        obtain ⟨ho1, ho2⟩ := negMerge_occ hm
        refine ⟨⟨?_, ?_, h3, h4⟩, fun μ hc hr => bool_ext ?_⟩
        · intro e he
          rcases List.mem_append.1 he with h | h
          · exact hclt _ (ho1 e (List.mem_reverse.1 h))
          · exact h1 e h
        · intro e he
          rcases List.mem_append.1 he with h | h
          · exact hclt _ (ho2 e (List.mem_reverse.1 h))
          · exact hns e h
        · have hv : (!(FE.val μ cur)) = clauseVal μ p n := by
            rw [callOf_val hc hr hco, negMerge_val hm]
          have hv' : FE.val μ cur = false ↔
              (∃ x ∈ p, FE.val μ x = true) ∨ (∃ x ∈ n, FE.val μ x = false) := by
            rw [← Bool.not_eq_true', hv, clauseVal_iff]
          rw [Exp.val_iff, Exp.val_iff, hx]
          simp only [List.mem_append, List.mem_cons, or_and_right, exists_or, exists_eq_left,
            List.mem_reverse, hv']
          exact or_neg
    · split
      · rename_i hd
        refine ⟨⟨h1, hns, h3, h4⟩, fun μ hc hr => bool_ext ?_⟩
        cases cur with
        | lit b => simp [dropDom] at hd
        | var v =>
          have : FE.val μ (.var v) = true := val_dom hr (by simpa [dropDom] using hd)
          rw [Exp.val_iff, Exp.val_iff, hx]
          simp only [List.mem_cons, or_and_right, exists_or, exists_eq_left, this]
          simp
      · refine ⟨⟨h1, hns, h3, ?_⟩, fun μ _ _ => bool_ext ?_⟩
        · intro e he
          rcases List.mem_append.1 he with h | h
          · exact h4 e h
          · rw [List.mem_singleton.1 h]; exact hcur
        · rw [Exp.val_iff, Exp.val_iff, hx]
          simp only [List.mem_append, List.mem_cons, or_and_right, exists_or, exists_eq_left,
            List.not_mem_nil, or_false, or_assoc, false_and, exists_false]

theorem expand_ok {s : St} (hi : Inv I s) : ∀ n neg (x : Exp), x.lt s.decls.length →
    (∀ e ∈ (expand s n neg x).1, e.lt s.decls.length) ∧
    (∀ e ∈ (expand s n neg x).2, e.lt s.decls.length) ∧
    ∀ μ, Canon I s μ → Roots I s μ →
      clauseVal μ (expand s n neg x).1 (expand s n neg x).2 = x.val μ := by
  intro n
  induction n with
  | zero =>
    intro neg x ⟨h1, h2, h3, h4⟩
    refine ⟨fun e he => ?_, fun e he => ?_, fun μ _ _ => rfl⟩
    · rcases List.mem_append.1 he with h | h
      · exact h3 e h
      · exact h1 e h
    · rcases List.mem_append.1 he with h | h
      · exact h4 e h
      · exact h2 e h
  | succ n ih =>
    intro neg x hl
    cases neg with
    | true =>
      unfold expand
      split
      · rename_i cur ns hx
        have hs := negStep_ok hi hx hl
        obtain ⟨a, b, c⟩ := ih true _ hs.1
        exact ⟨a, b, fun μ hc hr => (c μ hc hr).trans (hs.2 μ hc hr)⟩
      · exact ih false x hl
    | false =>
      unfold expand
      split
      · rename_i cur ps hx
        have hs := posStep_ok hi hx hl
        obtain ⟨a, b, c⟩ := ih false _ hs.1
        exact ⟨a, b, fun μ hc hr => (c μ hc hr).trans (hs.2 μ hc hr)⟩
      · rename_i hx
        split
        · rename_i hx'
          refine ⟨hl.2.2.1, hl.2.2.2, fun μ _ _ => ?_⟩
          simp [Exp.val, hx, hx']
        · exact ih true x hl

theorem any_occ {es : List FE} {n : Nat} (h : ∀ e ∈ es, e.lt n) : (FC.any_ es).lt n := by
  intro x hx
  obtain ⟨e, he, rfl⟩ := List.mem_map.1 hx
  exact h e he

theorem all_occ {es : List FE} {n : Nat} (h : ∀ e ∈ es, e.lt n) : (FC.all_ es).lt n := by
  intro x hx
  obtain ⟨e, he, rfl⟩ := List.mem_map.1 hx
  exact h e he

theorem clause_occ {ps ns : List FE} {n : Nat} (h : ∀ e ∈ ps, e.lt n) (h' : ∀ e ∈ ns, e.lt n) :
    (FC.clause ps ns).lt n := by
  intro x hx
  rcases List.mem_append.1 hx with hx | hx
  · obtain ⟨e, he, rfl⟩ := List.mem_map.1 hx
    exact h e he
  · obtain ⟨e, he, rfl⟩ := List.mem_map.1 hx
    exact h' e he

theorem callClause_ok {s : St} (hi : Inv I s) (b : BCtx) {tgt : Tgt}
    (ht : tgtLt s.decls.length tgt) {pos neg : List FE} (hp : ∀ e ∈ pos, e.lt s.decls.length)
    (hn : ∀ e ∈ neg, e.lt s.decls.length) :
    Ok I s (callClause s b tgt pos neg) tgt (fun μ => clauseVal μ pos neg) := by
  obtain ⟨e1, e2, e3⟩ := expand_ok hi (expandFuel s pos neg) false
    ⟨pos.reverse, neg.reverse, [], [], []⟩
    ⟨fun e he => hp e (List.mem_reverse.1 he), fun e he => hn e (List.mem_reverse.1 he),
      by simp, by simp⟩
  unfold callClause
  simp only
  generalize expand s (expandFuel s pos neg) false ⟨pos.reverse, neg.reverse, [], [], []⟩ = x
    at e1 e2 e3 ⊢
  have e3' : ∀ μ, Canon I s μ → Roots I s μ → clauseVal μ x.1 x.2 = clauseVal μ pos neg := by
    intro μ hc hr
    rw [e3 μ hc hr]
    apply bool_ext
    rw [Exp.val_iff, clauseVal_iff]
    simp
  refine Ok.congr hi (W := fun μ => clauseVal μ x.1 x.2) ?_ e3'
  cases h1 : removeDups s false x.1 with
  | none =>
    refine (bindPos_ok hi b ht (e := .lit true) trivial).congr hi fun μ hc hr => ?_
    obtain ⟨e, he, hv⟩ := removeDups_none h1
    refine (clauseVal_iff.2 (Or.inl ⟨e, he, ?_⟩)).symm
    rw [← followVal_val hc hr, hv]; rfl
  | some pa =>
    have hpa := removeDups_lt hi h1 e1
    simp only
    cases h2 : removeDups s true x.2 with
    | none =>
      refine (bindPos_ok hi b ht (e := .lit true) trivial).congr hi fun μ hc hr => ?_
      obtain ⟨e, he, hv⟩ := removeDups_none h2
      refine (clauseVal_iff.2 (Or.inr ⟨e, he, ?_⟩)).symm
      rw [← followVal_val hc hr, hv]; rfl
    | some na =>
      have hna := removeDups_lt hi h2 e2
      simp only
      refine Ok.congr hi (W := fun μ => clauseVal μ pa na) ?_ fun μ hc hr => bool_ext (by
        rw [clauseVal_iff, clauseVal_iff, removeDups_any h1 hc hr, removeDups_all h2 hc hr])
      split
      · rename_i hcd
        obtain ⟨y, hy1, hy2⟩ := containsDups_true _ _ _ hcd
        refine (bindPos_ok hi b ht (e := .lit true) trivial).congr hi fun μ hc hr => ?_
        symm
        rw [lit_val, clauseVal_iff]
        cases hv : FE.val μ y with
        | true => exact Or.inl ⟨y, hy1, hv⟩
        | false => exact Or.inr ⟨y, hy2, hv⟩
      · cases na with
        | nil =>
          simp only
          split
          · exact (bindPos_ok hi b ht (e := .lit false) trivial).congr hi fun μ _ _ => rfl
          · rename_i e _
            exact (bindPos_ok hi b ht (hpa e (by simp))).congr hi fun μ _ _ => by
              simp [clauseVal]
          · exact (post_ok hi b ht (any_occ hpa)).congr hi fun μ _ _ => by
              simp [clauseVal, FC.val]
        | cons e na' =>
          simp only
          split
          · rename_i h
            obtain ⟨rfl, rfl⟩ := h
            exact (bindFE_ok hi ⟨b.dn, true⟩ ht (hna e (by simp))).congr hi fun μ _ _ => by
              simp [clauseVal]
          · exact (post_ok hi b ht (clause_occ hpa hna)).congr hi fun μ _ _ => rfl

theorem mergeAll_ok {s : St} (hi : Inv I s) : ∀ es : List FE, (∀ e ∈ es, e.lt s.decls.length) →
    (∀ e ∈ mergeAll s es, e.lt s.decls.length) ∧
    ∀ μ, Canon I s μ → Roots I s μ → (mergeAll s es).all (FE.val μ) = es.all (FE.val μ) := by
  intro es
  induction es with
  | nil => intro _; exact ⟨by simp [mergeAll], fun _ _ _ => rfl⟩
  | cons e es ih =>
    intro h
    obtain ⟨i1, i2⟩ := ih fun x hx => h x (List.mem_cons_of_mem _ hx)
    unfold mergeAll
    split
    · rename_i xs hco
      have hlt := callOf_lt hi hco
      refine ⟨fun x hx => ?_, fun μ hc hr => ?_⟩
      · rcases List.mem_append.1 hx with hx | hx
        · exact hlt (true, x) (by simp [FC.occ, hx])
        · exact i1 x hx
      · rw [List.all_append, i2 μ hc hr, List.all_cons, callOf_val hc hr hco]
        rfl
    · refine ⟨fun x hx => ?_, fun μ hc hr => ?_⟩
      · rcases List.mem_cons.1 hx with hx | hx
        · rw [hx]; exact h e (by simp)
        · exact i1 x hx
      · rw [List.all_cons, List.all_cons, i2 μ hc hr]

theorem all_iff {μ : Nat → Bool} {es : List FE} :
    es.all (FE.val μ) = false ↔ ∃ x ∈ es, FE.val μ x = false := by
  simp [List.all_eq_false]

theorem bool_ext' {a b : Bool} (h : a = false ↔ b = false) : a = b := by
  cases a <;> cases b <;> simp_all

theorem callAll_ok {s : St} (hi : Inv I s) (b : BCtx) {tgt : Tgt}
    (ht : tgtLt s.decls.length tgt) {es : List FE} (he : ∀ e ∈ es, e.lt s.decls.length) :
    Ok I s (callAll s b tgt es) tgt (fun μ => es.all (FE.val μ)) := by
  obtain ⟨m1, m2⟩ := mergeAll_ok hi es he
  refine Ok.congr hi (W := fun μ => (mergeAll s es).all (FE.val μ)) ?_ m2
  unfold callAll
  cases h1 : removeDups s true (mergeAll s es) with
  | none =>
    refine (bindPos_ok hi b ht (e := .lit false) trivial).congr hi fun μ hc hr => ?_
    obtain ⟨e, he, hv⟩ := removeDups_none h1
    refine (all_iff.2 ⟨e, he, ?_⟩).symm
    rw [← followVal_val hc hr, hv]; rfl
  | some al =>
    have hal := removeDups_lt hi h1 m1
    simp only
    refine Ok.congr hi (W := fun μ => al.all (FE.val μ)) ?_ fun μ hc hr => bool_ext' (by
      rw [all_iff, all_iff, removeDups_all h1 hc hr])
    split
    · exact (bindPos_ok hi b ht (e := .lit true) trivial).congr hi fun μ _ _ => rfl
    · rename_i e
      exact (bindPos_ok hi b ht (hal e (by simp))).congr hi fun μ _ _ => by simp
    · exact (post_ok hi b ht (all_occ hal)).congr hi fun μ _ _ => rfl

/-! ### Lists of arguments -/

/-- A step that flattens elements `a` satisfying `Q` (at some number of declarations) to a value
`V a`. -/
def StepOk {α : Type} (I : Interp) (f : St → α → St × FE) (tgt : Tgt) (Q : Nat → α → Prop)
    (V : α → (Nat → Bool) → Bool) : Prop :=
  ∀ s a, Inv I s → Q s.decls.length a → Ok I s (f s a) tgt (V a)

/-- `Q` is kept when declarations are added. -/
def Mono {α : Type} (Q : Nat → α → Prop) : Prop := ∀ n m a, n ≤ m → Q n a → Q m a

theorem elems_ok {α : Type} {f : St → α → St × FE} {Q : Nat → α → Prop}
    {V : α → (Nat → Bool) → Bool} (hf : StepOk I f .fresh Q V) (hQ : Mono Q) (conj : Bool) :
    ∀ (es : List α) (s : St) (acc : List FE), Inv I s → (∀ a ∈ es, Q s.decls.length a) →
    (∀ e ∈ acc, e.lt s.decls.length) →
    Post I s (elems f conj s es acc).1 (fun _ => True) ∧
    (∀ e ∈ (elems f conj s es acc).2, e.lt (elems f conj s es acc).1.decls.length) ∧
    ∀ μ, Canon I (elems f conj s es acc).1 μ → Roots I (elems f conj s es acc).1 μ →
      ((∃ e ∈ (elems f conj s es acc).2, FE.val μ e = !conj) ↔
        ((∃ e ∈ acc, FE.val μ e = !conj) ∨ ∃ a ∈ es, V a μ = !conj)) := by
  intro es
  induction es with
  | nil =>
    intro s acc hi _ ha
    exact ⟨Post.refl hi, ha, fun μ _ _ => by simp [elems]⟩
  | cons a es ih =>
    intro s acc hi hq ha
    have h1 := hf s a hi (hq a (by simp))
    have hq'' : ∀ x ∈ es, Q (f s a).1.decls.length x := by
      intro b hb
      exact hQ _ _ _ h1.post.ext.len (hq b (List.mem_cons_of_mem _ hb))
    have ha' : ∀ e ∈ acc, e.lt (f s a).1.decls.length := fun e he =>
      (ha e he).mono h1.post.ext.len
    have hv := h1.val trivial
    unfold elems
    simp only
    cases hr : (f s a).2 with
    | lit b =>
      rw [hr] at hv
      simp only
      by_cases hb : b = conj
      · rw [if_pos hb]
        obtain ⟨i1, i2, i3⟩ := ih (f s a).1 acc h1.post.inv hq'' ha'
        refine ⟨(h1.post.trans hi i1).congr fun _ _ _ => by simp [tgtP], i2, fun μ hc hr' => ?_⟩
        rw [i3 μ hc hr']
        have := hv.val μ (i1.canon h1.post.inv hc) (i1.roots hc hr')
        have hne : ¬ V a μ = !conj := by
          rw [← this, hb, lit_val]; cases conj <;> simp
        simp [hne]
      · rw [if_neg hb]
        refine ⟨h1.post, fun e he => ?_, fun μ hc hr' => ?_⟩
        · rw [List.mem_singleton.1 he]; trivial
        · have := hv.val μ hc hr'
          have hb' : b = !conj := by cases b <;> cases conj <;> simp_all
          have hva : V a μ = !conj := by rw [← this, lit_val, hb']
          constructor
          · intro _; exact Or.inr ⟨a, by simp, hva⟩
          · intro _; exact ⟨.lit b, by simp, by rw [lit_val, hb']⟩
    | var v =>
      rw [hr] at hv
      simp only
      obtain ⟨i1, i2, i3⟩ := ih (f s a).1 (acc ++ [.var v]) h1.post.inv hq'' (by
        intro e he
        rcases List.mem_append.1 he with h | h
        · exact ha' e h
        · rw [List.mem_singleton.1 h]; exact hv.lt)
      refine ⟨(h1.post.trans hi i1).congr fun _ _ _ => by simp [tgtP], i2, fun μ hc hr' => ?_⟩
      rw [i3 μ hc hr']
      have := hv.val μ (i1.canon h1.post.inv hc) (i1.roots hc hr')
      simp only [List.mem_append, List.mem_cons, List.not_mem_nil, or_false, or_and_right,
        exists_or, exists_eq_left, this, or_assoc]

theorem mapFlat_ok {α : Type} {f : St → α → St × FE} {Q : Nat → α → Prop}
    {V : α → (Nat → Bool) → Bool} (hf : StepOk I f .fresh Q V) (hQ : Mono Q) :
    ∀ (es : List α) (s : St), Inv I s → (∀ a ∈ es, Q s.decls.length a) →
    Post I s (mapFlat f s es).1 (fun _ => True) ∧
    (∀ e ∈ (mapFlat f s es).2, e.lt (mapFlat f s es).1.decls.length) ∧
    ∀ μ, Canon I (mapFlat f s es).1 μ → Roots I (mapFlat f s es).1 μ →
      (mapFlat f s es).2.map (FE.val μ) = es.map (fun a => V a μ) := by
  intro es
  induction es with
  | nil => intro s hi _; exact ⟨Post.refl hi, by simp [mapFlat], fun _ _ _ => rfl⟩
  | cons a es ih =>
    intro s hi hq
    have h1 := hf s a hi (hq a (by simp))
    have hv := h1.val trivial
    obtain ⟨i1, i2, i3⟩ := ih (f s a).1 h1.post.inv (fun b hb =>
      hQ _ _ _ h1.post.ext.len (hq b (List.mem_cons_of_mem _ hb)))
    unfold mapFlat
    refine ⟨(h1.post.trans hi i1).congr fun _ _ _ => by simp [tgtP], fun e he => ?_,
      fun μ hc hr => ?_⟩
    · rcases List.mem_cons.1 he with he | he
      · rw [he]; exact hv.lt.mono i1.ext.len
      · exact i2 e he
    · simp only [List.map_cons]
      rw [i3 μ hc hr, hv.val μ (i1.canon h1.post.inv hc) (i1.roots hc hr)]

theorem postEach_ok {α : Type} {f : St → α → St × FE} {Q : Nat → α → Prop}
    {V : α → (Nat → Bool) → Bool} (hf : StepOk I f .tru Q V) (hQ : Mono Q) :
    ∀ (es : List α) (s : St), Inv I s → (∀ a ∈ es, Q s.decls.length a) →
    Post I s (postEach f s es) (fun μ => ∀ a ∈ es, V a μ = true) := by
  intro es
  induction es with
  | nil => intro s hi _; exact (Post.refl hi).congr fun _ _ _ => by simp
  | cons a es ih =>
    intro s hi hq
    have h1 := hf s a hi (hq a (by simp))
    have i1 := ih (f s a).1 h1.post.inv (fun b hb =>
      hQ _ _ _ h1.post.ext.len (hq b (List.mem_cons_of_mem _ hb)))
    exact (h1.post.trans hi i1).congr fun μ _ _ => by simp [tgtP]

/-- The conjunction of a list, posted element by element. -/
theorem postEach_tru {α : Type} {f : St → α → St × FE} {Q : Nat → α → Prop}
    {V : α → (Nat → Bool) → Bool} (hf : StepOk I f .tru Q V) (hQ : Mono Q) {es : List α} {s : St}
    (hi : Inv I s) (hq : ∀ a ∈ es, Q s.decls.length a) {W : (Nat → Bool) → Bool}
    (hw : ∀ μ, W μ = true ↔ ∀ a ∈ es, V a μ = true) :
    Ok I s (postEach f s es, .lit true) .tru W := by
  have h := postEach_ok hf hQ es s hi hq
  refine ⟨h.congr fun μ _ _ => (hw μ).symm, fun _ => ⟨trivial, fun μ hc hr => ?_⟩⟩
  exact ((hw μ).2 ((h.sem μ hc).1 hr).2).symm

theorem mono_fe : Mono (fun n (e : FE) => e.lt n) := fun _ _ _ h he => he.mono h

theorem any_iff {μ : Nat → Bool} {es : List FE} :
    es.any (FE.val μ) = true ↔ ∃ x ∈ es, FE.val μ x = true := by
  simp [List.any_eq_true]

/-- Elements of a conjunction, then the call. -/
theorem elemsAll_ok {α : Type} {f : St → α → St × FE} {Q : Nat → α → Prop}
    {V : α → (Nat → Bool) → Bool} (hf : StepOk I f .fresh Q V) (hQ : Mono Q) {es : List α} {s : St}
    (hi : Inv I s) (hq : ∀ a ∈ es, Q s.decls.length a) (b : BCtx) {tgt : Tgt}
    (ht : tgtLt s.decls.length tgt) :
    Ok I s (callAll (elems f true s es []).1 b tgt (elems f true s es []).2) tgt
      (fun μ => es.all (fun a => V a μ)) := by
  obtain ⟨h1, h2, h3⟩ := elems_ok hf hQ true es s [] hi hq (by simp)
  refine Ok.after hi h1 ((callAll_ok h1.inv b (ht.mono h1.ext.len) h2).congr h1.inv ?_)
  intro μ hc hr
  apply bool_ext'
  rw [all_iff]
  have := h3 μ hc hr
  simp only [Bool.not_true] at this
  rw [this]
  simp [List.all_eq_false]

/-- Elements of a disjunction, then the call. -/
theorem elemsAny_ok {α : Type} {f : St → α → St × FE} {Q : Nat → α → Prop}
    {V : α → (Nat → Bool) → Bool} (hf : StepOk I f .fresh Q V) (hQ : Mono Q) {es : List α} {s : St}
    (hi : Inv I s) (hq : ∀ a ∈ es, Q s.decls.length a) (b : BCtx) {tgt : Tgt}
    (ht : tgtLt s.decls.length tgt) :
    Ok I s (callClause (elems f false s es []).1 b tgt (elems f false s es []).2 []) tgt
      (fun μ => es.any (fun a => V a μ)) := by
  obtain ⟨h1, h2, h3⟩ := elems_ok hf hQ false es s [] hi hq (by simp)
  refine Ok.after hi h1
    ((callClause_ok h1.inv b (ht.mono h1.ext.len) h2 (neg := []) (by simp)).congr h1.inv ?_)
  intro μ hc hr
  apply bool_ext
  rw [clauseVal_iff]
  have := h3 μ hc hr
  simp only [Bool.not_false] at this
  rw [this]
  simp [List.any_eq_true]

theorem flatFE_step (c : Ctx) : StepOk I (fun s e => flatFE s c .fresh e) .fresh
    (fun n e => e.lt n) (fun e μ => e.val μ != c.neg) := fun _ _ hi he => flatFE_ok hi c (tgt := .fresh) trivial he

theorem conjPos_ok {s : St} (hi : Inv I s) (b : BCtx) {tgt : Tgt}
    (ht : tgtLt s.decls.length tgt) {es : List FE} (he : ∀ e ∈ es, e.lt s.decls.length) :
    Ok I s (conjPos s b tgt es) tgt (fun μ => es.all (FE.val μ)) := by
  unfold conjPos
  by_cases hf : FE.lit false ∈ es
  · rw [if_pos hf]
    refine (bindPos_ok hi .root ht (e := .lit false) trivial).congr hi fun μ _ _ => ?_
    exact (all_iff.2 ⟨_, hf, rfl⟩).symm
  · rw [if_neg hf]
    have hfil : ∀ μ, (es.filter (fun e => decide (e ≠ .lit true))).all (FE.val μ) =
        es.all (FE.val μ) := by
      intro μ
      apply bool_ext'
      rw [all_iff, all_iff]
      constructor
      · rintro ⟨x, hx, hv⟩; exact ⟨x, (List.mem_filter.1 hx).1, hv⟩
      · rintro ⟨x, hx, hv⟩
        refine ⟨x, List.mem_filter.2 ⟨hx, ?_⟩, hv⟩
        have : x ≠ .lit true := by rintro rfl; cases hv
        simpa using this
    have hlt : ∀ e ∈ es.filter (fun e => decide (e ≠ .lit true)), e.lt s.decls.length :=
      fun e h => he e (List.mem_filter.1 h).1
    generalize es.filter (fun e => decide (e ≠ .lit true)) = nt at hfil hlt ⊢
    refine Ok.congr hi (W := fun μ => nt.all (FE.val μ)) ?_ fun μ _ _ => hfil μ
    split
    · exact (bindPos_ok hi .root ht (e := .lit true) trivial).congr hi fun μ _ _ => rfl
    · rename_i e
      exact (bindPos_ok hi b ht (hlt e (by simp))).congr hi fun μ _ _ => by simp
    · split
      · rename_i htr
        subst htr
        refine postEach_tru (Q := fun n (e : FE) => e.lt n) (V := fun e μ => e.val μ) ?_ mono_fe hi
          hlt fun μ => by simp [List.all_eq_true]
        intro s e hi he
        exact bindPos_ok hi b (tgt := .tru) trivial he
      · have := elemsAll_ok (flatFE_step (I := I) ⟨b.up, false⟩) mono_fe hi hlt b ht
        exact this.congr hi fun μ _ _ => by simp

/-- The value of a flat expression with a sign. -/
def sval (μ : Nat → Bool) (x : Bool × FE) : Bool := FE.val μ x.2 != x.1

theorem flatNot_ok {s : St} (hi : Inv I s) (b : BCtx) {tgt : Tgt}
    (ht : tgtLt s.decls.length tgt) {x : Bool × FE} (hx : x.2.lt s.decls.length) :
    Ok I s (flatNot s b tgt x) tgt (fun μ => !(sval μ x)) := by
  unfold flatNot
  obtain ⟨f, e⟩ := x
  cases f with
  | true => exact (flatFE_ok hi ⟨b.dn.dn, false⟩ ht hx).congr hi fun μ _ _ => by simp [sval]
  | false => exact (flatFE_ok hi ⟨b.dn, true⟩ ht hx).congr hi fun μ _ _ => by simp [sval]

theorem signed_val {x : Bool × FE} {b : Bool} (h : signed x = .lit b) (μ) : sval μ x = b := by
  obtain ⟨f, e⟩ := x
  cases e with
  | lit c => simp only [signed] at h; cases h; rfl
  | var v => simp [signed] at h

theorem conjNeg_ok {s : St} (hi : Inv I s) (b : BCtx) {tgt : Tgt}
    (ht : tgtLt s.decls.length tgt) {es : List (Bool × FE)}
    (he : ∀ x ∈ es, x.2.lt s.decls.length) :
    Ok I s (conjNeg s b tgt es) tgt (fun μ => !(es.all (sval μ))) := by
  unfold conjNeg
  split
  · rename_i hf
    obtain ⟨x, hx, hs⟩ := List.any_eq_true.1 hf
    refine (bindPos_ok hi .root ht (e := .lit true) trivial).congr hi fun μ _ _ => ?_
    have hv := signed_val (of_decide_eq_true hs) μ
    have : es.all (sval μ) = false := by
      rw [List.all_eq_false]; exact ⟨x, hx, by rw [hv]; simp⟩
    rw [this]; rfl
  · have hfil : ∀ μ, (es.filter (fun x => decide (signed x ≠ .lit true))).all (sval μ) =
        es.all (sval μ) := by
      intro μ
      apply bool_ext'
      rw [List.all_eq_false, List.all_eq_false]
      constructor
      · rintro ⟨x, hx, hv⟩; exact ⟨x, (List.mem_filter.1 hx).1, hv⟩
      · rintro ⟨x, hx, hv⟩
        refine ⟨x, List.mem_filter.2 ⟨hx, ?_⟩, hv⟩
        have : signed x ≠ .lit true := fun h => hv (signed_val h μ)
        simpa using this
    have hlt : ∀ x ∈ es.filter (fun x => decide (signed x ≠ .lit true)), x.2.lt s.decls.length :=
      fun e h => he e (List.mem_filter.1 h).1
    generalize es.filter (fun x => decide (signed x ≠ .lit true)) = nt at hfil hlt ⊢
    refine Ok.congr hi (W := fun μ => !(nt.all (sval μ))) ?_ fun μ _ _ => by rw [hfil μ]
    split
    · exact (bindPos_ok hi .root ht (e := .lit false) trivial).congr hi fun μ _ _ => rfl
    · rename_i x
      exact (flatNot_ok hi b.dn ht (hlt x (by simp))).congr hi fun μ _ _ => by simp
    · have hst : StepOk I (fun s x => flatNot s b.dn.up .fresh x) .fresh
          (fun n (x : Bool × FE) => x.2.lt n) (fun x μ => !(sval μ x)) :=
        fun _ _ hi he => flatNot_ok hi _ (tgt := .fresh) trivial he
      have := elemsAny_ok hst (fun _ _ _ h he => he.mono h) hi hlt b.dn ht
      exact this.congr hi fun μ _ _ => by simp [List.not_all_eq_any_not]

/-! ### Comparisons -/

theorem compl_holds (o : Cmp) (a b : Int) : o.compl.holds a b = !(o.holds a b) := by
  apply bool_ext
  cases o <;> simp [Cmp.compl, Cmp.holds]

theorem cmpTail_ok {s : St} (hi : Inv I s) (c : Ctx) {tgt : Tgt}
    (ht : tgtLt s.decls.length tgt) {eb : FE} {cc : FC} (he : eb.lt s.decls.length)
    (hc : cc.lt s.decls.length) {W : (Nat → Bool) → Bool}
    (hw : ∀ μ, W μ = if c.neg then !(eb.val μ) || cc.val I μ else eb.val μ && cc.val I μ) :
    Ok I s (cmpTail s c tgt eb cc) tgt W := by
  have hcj : ∀ (s' : St) (r : FE), Post I s s' (fun _ => True) → Val I s' r (fun μ => cc.val I μ) →
      Ok I s (if c.neg then conjNeg s' c.b tgt [(false, eb), (true, r)]
        else conjPos (annFE s' r c.b) c.b tgt [eb, r]) tgt W := by
    intro s' r hp hv
    have he' := he.mono hp.ext.len
    refine Ok.after hi hp ?_
    cases hn : c.neg with
    | true =>
      rw [if_pos rfl]
      refine (conjNeg_ok hp.inv c.b (ht.mono hp.ext.len) (es := [(false, eb), (true, r)]) ?_).congr
        hp.inv fun μ hcn hr => ?_
      · intro x hx
        simp only [List.mem_cons, List.not_mem_nil, or_false] at hx
        rcases hx with rfl | rfl
        · exact he'
        · exact hv.lt
      · rw [hw, if_pos hn, ← hv.val μ hcn hr]
        simp [sval]
    | false =>
      simp only [Bool.false_eq_true, if_false]
      have ha := annFE_post hp.inv r c.b
      refine Ok.after hp.inv ha ?_
      refine (conjPos_ok ha.inv c.b (ht.mono (Nat.le_trans hp.ext.len ha.ext.len))
        (es := [eb, r]) ?_).congr ha.inv fun μ hcn hr => ?_
      · intro x hx
        simp only [List.mem_cons, List.not_mem_nil, or_false] at hx
        rcases hx with rfl | rfl
        · exact he'.mono ha.ext.len
        · exact hv.lt.mono ha.ext.len
      · rw [hw, if_neg (by simp [hn]),
          ← hv.val μ (ha.canon hp.inv hcn) (ha.roots hcn hr)]
        simp
  unfold cmpTail
  simp only
  by_cases hf : eb = .lit false
  · rw [if_pos hf]
    subst hf
    cases hn : c.neg with
    | true =>
      rw [if_pos rfl]
      exact (conjNeg_ok hi c.b ht (es := [(false, .lit false)]) (by simp [FE.lt])).congr hi
        fun μ _ _ => by rw [hw, if_pos hn]; simp [sval, lit_val]
    | false =>
      simp only [Bool.false_eq_true, if_false]
      exact (conjPos_ok hi c.b ht (es := [.lit false]) (by simp [FE.lt])).congr hi
        fun μ _ _ => by rw [hw, if_neg (by simp [hn])]; simp [lit_val]
  · rw [if_neg hf]
    cases hcs : cseFind s cc with
    | some r =>
      have hm := hi.cse _ (cseFind_mem hcs)
      have h1 := cseChange_post hi r c.b
      have hv : Val I s r (fun μ => cc.val I μ) :=
        ⟨hm.1, fun μ hcn hr => (hm.2 μ hcn hr).symm⟩
      exact hcj _ r h1 (hv.mono hi h1)
    | none =>
      simp only
      by_cases ht1 : eb = .lit true
      · rw [if_pos ht1]
        subst ht1
        exact (post_ok hi _ ht hc).congr hi fun μ _ _ => by
          rw [hw]; simp [lit_val]
      · rw [if_neg ht1]
        have h1 := post_ok hi (if c.neg then c.b.dn else c.b) (tgt := .fresh) trivial hc
        exact hcj _ _ h1.post (h1.val trivial)

theorem flatCmp_ok {s : St} (hi : Inv I s) (c : Ctx) {tgt : Tgt}
    (ht : tgtLt s.decls.length tgt) (hroot : c.neg = true → c.b ≠ .root)
    (htr : c.b = .root → tgt = .tru) (o : Cmp) (t0 t1 : Nat) (d : Option Nat) :
    Ok I s (flatCmp s c tgt o t0 t1 d) tgt
      (fun μ => (defHolds I d && o.holds (I.term t0) (I.term t1)) != c.neg) := by
  have hcc : ∀ μ, (cmpCall c o t0 t1).val I μ =
      (o.holds (I.term t0) (I.term t1) != c.neg) := by
    intro μ
    unfold cmpCall
    cases c.neg <;> simp [FC.val, compl_holds]
  have hlt : ∀ n, (cmpCall c o t0 t1).lt n := by
    intro n x hx; simp [cmpCall, FC.occ] at hx
  unfold flatCmp
  cases d with
  | none =>
    refine cmpTail_ok hi c ht (eb := .lit true) trivial (hlt _) fun μ => ?_
    rw [hcc]; cases c.neg <;> simp [lit_val, defHolds]
  | some p =>
    have hpl : (FC.pred p).lt s.decls.length := by intro x hx; simp [FC.occ] at hx
    simp only
    by_cases hb : c.b = .root
    · rw [if_pos hb]
      have hn : c.neg = false := by
        cases h : c.neg with
        | false => rfl
        | true => exact absurd hb (hroot h)
      have h1 := post_ok hi .root (tgt := .tru) trivial hpl
      have h2 := cmpTail_ok (W := fun μ => FE.val μ (post s .root .tru (.pred p)).2 &&
        (cmpCall c o t0 t1).val I μ) h1.post.inv c (ht.mono h1.post.ext.len)
        (h1.val trivial).lt (hlt _) (fun μ => by simp [hn])
      have htt := htr hb
      subst htt
      have h3 := (h2.congr (W' := fun μ => I.pred p && o.holds (I.term t0) (I.term t1)) h1.post.inv
        fun μ hcn hr => by
          rw [(h1.val trivial).val μ hcn hr, hcc, hn]
          simp [FC.val])
      refine ⟨(h1.post.trans hi h3.post).congr fun μ _ _ => ?_, fun hn' => ?_⟩
      · simp [tgtP, FC.val, hn, defHolds]
      · exact (h3.val hn').congr fun μ _ _ => by simp [hn, defHolds]
    · rw [if_neg hb]
      have h1 := post_ok hi c.b (tgt := .fresh) trivial hpl
      have hv := h1.val trivial
      have h2 := cmpTail_ok (W := fun μ => if c.neg then
          !(FE.val μ (post s c.b .fresh (.pred p)).2) || (cmpCall c o t0 t1).val I μ
        else FE.val μ (post s c.b .fresh (.pred p)).2 && (cmpCall c o t0 t1).val I μ)
        h1.post.inv c (ht.mono h1.post.ext.len) hv.lt (hlt _) (fun μ => rfl)
      refine Ok.after hi h1.post (h2.congr h1.post.inv fun μ hcn hr => ?_)
      rw [hv.val μ hcn hr, hcc]
      cases c.neg <;> simp [FC.val, defHolds]

end BoolFlat
end MZ
