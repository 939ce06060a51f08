import Verif.BoolFlat.Clause

/-! What flattening an expression means. -/

namespace MZ
namespace BoolFlat

variable {I : Interp}

theorem vals_eq (I : Interp) (σ : Nat → Bool) : ∀ es : List BE,
    BE.vals I σ es = es.map (BE.val I σ) := by
  intro es
  induction es with
  | nil => simp [BE.vals]
  | cons e es ih => simp [BE.vals, ih]

theorem scopes_iff (n : Nat) : ∀ es : List BE, BE.scopes n es ↔ ∀ e ∈ es, e.scope n := by
  intro es
  induction es with
  | nil => simp [BE.scopes]
  | cons e es ih => simp [BE.scopes, ih]

theorem size_le_sizes : ∀ (es : List BE), ∀ e ∈ es, e.size ≤ BE.sizes es := by
  intro es
  induction es with
  | nil => intro e he; cases he
  | cons x es ih =>
    intro e he
    simp only [BE.sizes]
    rcases List.mem_cons.1 he with he | he
    · subst he; omega
    · have := ih e he; omega

theorem size_pos (e : BE) : 1 ≤ e.size := by
  cases e <;> simp only [BE.size] <;> omega

theorem pars_iff : ∀ es : List BE, BE.pars es = true ↔ ∀ e ∈ es, e.par = true := by
  intro es
  induction es with
  | nil => simp [BE.pars]
  | cons e es ih => simp [BE.pars, ih]

mutual
/-- A parameter expression has the same value everywhere. -/
theorem par_val (I J : Interp) (σ τ : Nat → Bool) :
    ∀ e : BE, e.par = true → e.val I σ = e.val J τ
  | .lit _, _ => by simp [BE.val]
  | .var _, h => by simp [BE.par] at h
  | .pred _, h => by simp [BE.par] at h
  | .cmp .., h => by simp [BE.par] at h
  | .cnt .., h => by simp [BE.par] at h
  | .not e, h => by
    simp only [BE.par] at h
    simp only [BE.val, par_val I J σ τ e h]
  | .and a b, h => by
    simp only [BE.par, Bool.and_eq_true] at h
    simp only [BE.val, par_val I J σ τ a h.1, par_val I J σ τ b h.2]
  | .or a b, h => by
    simp only [BE.par, Bool.and_eq_true] at h
    simp only [BE.val, par_val I J σ τ a h.1, par_val I J σ τ b h.2]
  | .impl a b, h => by
    simp only [BE.par, Bool.and_eq_true] at h
    simp only [BE.val, par_val I J σ τ a h.1, par_val I J σ τ b h.2]
  | .rimpl a b, h => by
    simp only [BE.par, Bool.and_eq_true] at h
    simp only [BE.val, par_val I J σ τ a h.1, par_val I J σ τ b h.2]
  | .equiv a b, h => by
    simp only [BE.par, Bool.and_eq_true] at h
    simp only [BE.val, par_val I J σ τ a h.1, par_val I J σ τ b h.2]
  | .xor a b, h => by
    simp only [BE.par, Bool.and_eq_true] at h
    simp only [BE.val, par_val I J σ τ a h.1, par_val I J σ τ b h.2]
  | .forall_ es, h => by
    simp only [BE.par] at h
    simp only [BE.val, pars_val I J σ τ es h]
  | .exists_ es, h => by
    simp only [BE.par] at h
    simp only [BE.val, pars_val I J σ τ es h]
/-- `par_val` for lists. -/
theorem pars_val (I J : Interp) (σ τ : Nat → Bool) :
    ∀ es : List BE, BE.pars es = true → BE.vals I σ es = BE.vals J τ es
  | [], _ => by simp [BE.vals]
  | e :: es, h => by
    simp only [BE.pars, Bool.and_eq_true] at h
    simp only [BE.vals, par_val I J σ τ e h.1, pars_val I J σ τ es h.2]
end

theorem pval_eq (I : Interp) (σ : Nat → Bool) {e : BE} (h : e.par = true) :
    e.val I σ = e.pval := par_val _ _ _ _ e h

mutual
/-- The value depends only on the variables in scope. -/
theorem val_congr (I : Interp) {σ τ : Nat → Bool} {n : Nat} (hst : ∀ x < n, σ x = τ x) :
    ∀ e : BE, e.scope n → e.val I σ = e.val I τ
  | .lit _, _ => by simp [BE.val]
  | .var x, h => by
    simp only [BE.scope] at h
    simp only [BE.val, hst x h]
  | .pred _, h => by simp [BE.val]
  | .cmp .., h => by simp [BE.val]
  | .cnt _ es _, h => by
    simp only [BE.scope] at h
    simp only [BE.val, vals_congr I hst es h]
  | .not e, h => by
    simp only [BE.scope] at h
    simp only [BE.val, val_congr I hst e h]
  | .and a b, h => by
    simp only [BE.scope] at h
    simp only [BE.val, val_congr I hst a h.1, val_congr I hst b h.2]
  | .or a b, h => by
    simp only [BE.scope] at h
    simp only [BE.val, val_congr I hst a h.1, val_congr I hst b h.2]
  | .impl a b, h => by
    simp only [BE.scope] at h
    simp only [BE.val, val_congr I hst a h.1, val_congr I hst b h.2]
  | .rimpl a b, h => by
    simp only [BE.scope] at h
    simp only [BE.val, val_congr I hst a h.1, val_congr I hst b h.2]
  | .equiv a b, h => by
    simp only [BE.scope] at h
    simp only [BE.val, val_congr I hst a h.1, val_congr I hst b h.2]
  | .xor a b, h => by
    simp only [BE.scope] at h
    simp only [BE.val, val_congr I hst a h.1, val_congr I hst b h.2]
  | .forall_ es, h => by
    simp only [BE.scope] at h
    simp only [BE.val, vals_congr I hst es h]
  | .exists_ es, h => by
    simp only [BE.scope] at h
    simp only [BE.val, vals_congr I hst es h]
/-- `val_congr` for lists. -/
theorem vals_congr (I : Interp) {σ τ : Nat → Bool} {n : Nat} (hst : ∀ x < n, σ x = τ x) :
    ∀ es : List BE, BE.scopes n es → BE.vals I σ es = BE.vals I τ es
  | [], _ => by simp [BE.vals]
  | e :: es, h => by
    simp only [BE.scopes] at h
    simp only [BE.vals, val_congr I hst e h.1, vals_congr I hst es h.2]
end

mutual
/-- More variables may be declared. -/
theorem scope_mono {n m : Nat} (hnm : n ≤ m) : ∀ e : BE, e.scope n → e.scope m
  | .lit _, _ => by simp [BE.scope]
  | .var x, h => by
    simp only [BE.scope] at h ⊢
    omega
  | .pred _, h => by simp [BE.scope]
  | .cmp .., h => by simp [BE.scope]
  | .cnt _ es _, h => by
    simp only [BE.scope] at h ⊢
    exact scopes_mono hnm es h
  | .not e, h => by
    simp only [BE.scope] at h ⊢
    exact scope_mono hnm e h
  | .and a b, h => by
    simp only [BE.scope] at h ⊢
    exact ⟨scope_mono hnm a h.1, scope_mono hnm b h.2⟩
  | .or a b, h => by
    simp only [BE.scope] at h ⊢
    exact ⟨scope_mono hnm a h.1, scope_mono hnm b h.2⟩
  | .impl a b, h => by
    simp only [BE.scope] at h ⊢
    exact ⟨scope_mono hnm a h.1, scope_mono hnm b h.2⟩
  | .rimpl a b, h => by
    simp only [BE.scope] at h ⊢
    exact ⟨scope_mono hnm a h.1, scope_mono hnm b h.2⟩
  | .equiv a b, h => by
    simp only [BE.scope] at h ⊢
    exact ⟨scope_mono hnm a h.1, scope_mono hnm b h.2⟩
  | .xor a b, h => by
    simp only [BE.scope] at h ⊢
    exact ⟨scope_mono hnm a h.1, scope_mono hnm b h.2⟩
  | .forall_ es, h => by
    simp only [BE.scope] at h ⊢
    exact scopes_mono hnm es h
  | .exists_ es, h => by
    simp only [BE.scope] at h ⊢
    exact scopes_mono hnm es h
/-- `scope_mono` for lists. -/
theorem scopes_mono {n m : Nat} (hnm : n ≤ m) : ∀ es : List BE, BE.scopes n es → BE.scopes m es
  | [], _ => by simp [BE.scopes]
  | e :: es, h => by
    simp only [BE.scopes] at h ⊢
    exact ⟨scope_mono hnm e h.1, scopes_mono hnm es h.2⟩
end

/-! ### Aggregation -/

/-- The value of an element with a sign. -/
def gval (I : Interp) (μ : Nat → Bool) (x : Bool × BE) : Bool := x.2.val I μ == x.1

/-- What `aggr` returns: the meaning, and elements that are not larger and in scope. -/
structure AggrOk (I : Interp) (isOr p : Bool) (e : BE) (xs : List (Bool × BE)) : Prop where
  or : isOr = true → ∀ μ, (∃ x ∈ xs, gval I μ x = true) ↔ e.val I μ = p
  and : isOr = false → ∀ μ, (∀ x ∈ xs, gval I μ x = true) ↔ e.val I μ = p
  size : ∀ x ∈ xs, x.2.size ≤ e.size
  scope : ∀ n, e.scope n → ∀ x ∈ xs, x.2.scope n

theorem AggrOk.single (isOr p : Bool) (e : BE) : AggrOk I isOr p e [(p, e)] :=
  ⟨fun _ μ => by simp [gval], fun _ μ => by simp [gval], by simp, by simp⟩

theorem AggrOk.join {isOr p : Bool} {e a b : BE} {xs ys : List (Bool × BE)}
    (ha : AggrOk I isOr p a xs) (hb : AggrOk I isOr p b ys)
    (ho : isOr = true → ∀ μ, (e.val I μ = p ↔ a.val I μ = p ∨ b.val I μ = p))
    (hn : isOr = false → ∀ μ, (e.val I μ = p ↔ a.val I μ = p ∧ b.val I μ = p))
    (hs : a.size ≤ e.size ∧ b.size ≤ e.size)
    (hc : ∀ n, e.scope n → a.scope n ∧ b.scope n) : AggrOk I isOr p e (xs ++ ys) := by
  refine ⟨fun h μ => ?_, fun h μ => ?_, fun x hx => ?_, fun n h x hx => ?_⟩
  · rw [ho h, ← ha.or h, ← hb.or h]
    simp only [List.mem_append, or_and_right, exists_or]
  · rw [hn h, ← ha.and h, ← hb.and h]
    simp only [List.mem_append, or_imp, forall_and]
  · rcases List.mem_append.1 hx with hx | hx
    · exact Nat.le_trans (ha.size x hx) hs.1
    · exact Nat.le_trans (hb.size x hx) hs.2
  · rcases List.mem_append.1 hx with hx | hx
    · exact ha.scope n (hc n h).1 x hx
    · exact hb.scope n (hc n h).2 x hx

theorem aggr_ok (isOr : Bool) : ∀ (e : BE) (p : Bool), AggrOk I isOr p e (aggr isOr p e)
  | .or a b, p => by
    have ha := aggr_ok isOr a
    have hb := aggr_ok isOr b
    cases p <;> unfold aggr <;> split
    · exact AggrOk.single ..
    · rename_i h
      exact (ha false).join (hb false) (fun h' => absurd h' h)
        (fun _ μ => by simp [BE.val]) ⟨by simp only [BE.size]; omega, by simp only [BE.size]; omega⟩
        (fun n h => by simpa only [BE.scope] using h)
    · rename_i h
      exact (ha true).join (hb true) (fun _ μ => by simp [BE.val])
        (fun h' => absurd (h.symm.trans h') (by simp))
        ⟨by simp only [BE.size]; omega, by simp only [BE.size]; omega⟩
        (fun n h => by simpa only [BE.scope] using h)
    · exact AggrOk.single ..
  | .and a b, p => by
    have ha := aggr_ok isOr a
    have hb := aggr_ok isOr b
    cases p <;> unfold aggr <;> split
    · rename_i h
      exact (ha false).join (hb false) (fun _ μ => by
          simp only [BE.val]; cases a.val I μ <;> cases b.val I μ <;> simp)
        (fun h' => absurd (h.symm.trans h') (by simp))
        ⟨by simp only [BE.size]; omega, by simp only [BE.size]; omega⟩
        (fun n h => by simpa only [BE.scope] using h)
    · exact AggrOk.single ..
    · exact AggrOk.single ..
    · rename_i h
      exact (ha true).join (hb true) (fun h' => absurd h' h)
        (fun _ μ => by simp [BE.val]) ⟨by simp only [BE.size]; omega, by simp only [BE.size]; omega⟩
        (fun n h => by simpa only [BE.scope] using h)
  | .not e, p => by
    have he := aggr_ok isOr e true
    cases p <;> unfold aggr
    · exact ⟨fun h μ => by rw [he.or h]; simp [BE.val], fun h μ => by rw [he.and h]; simp [BE.val],
        fun x hx => by have := he.size x hx; simp only [BE.size]; omega,
        fun n h x hx => he.scope n (by simpa only [BE.scope] using h) x hx⟩
    · split
      · exact ⟨fun _ μ => by simp [gval, BE.val], fun _ μ => by simp [gval, BE.val],
          by simp [BE.size], by simp [BE.scope]⟩
      · exact AggrOk.single ..
  | .lit _, p => by cases p <;> exact AggrOk.single ..
  | .var _, p => by cases p <;> exact AggrOk.single ..
  | .pred _, p => by cases p <;> exact AggrOk.single ..
  | .cmp .., p => by cases p <;> exact AggrOk.single ..
  | .cnt .., p => by cases p <;> exact AggrOk.single ..
  | .impl .., p => by cases p <;> exact AggrOk.single ..
  | .rimpl .., p => by cases p <;> exact AggrOk.single ..
  | .equiv .., p => by cases p <;> exact AggrOk.single ..
  | .xor .., p => by cases p <;> exact AggrOk.single ..
  | .forall_ .., p => by cases p <;> exact AggrOk.single ..
  | .exists_ .., p => by cases p <;> exact AggrOk.single ..

/-- What `leaves` returns. -/
theorem leaves_ok (isOr : Bool) : ∀ (e : BE),
    (∀ μ, (∀ x ∈ leaves isOr e, (x.val I μ != isOr) = true) ↔ (e.val I μ != isOr) = true) ∧
    (∀ x ∈ leaves isOr e, x.size ≤ e.size) ∧
    (∀ n, e.scope n → ∀ x ∈ leaves isOr e, x.scope n)
  | .or a b => by
    obtain ⟨a1, a2, a3⟩ := leaves_ok isOr a
    obtain ⟨b1, b2, b3⟩ := leaves_ok isOr b
    unfold leaves
    cases isOr with
    | true =>
      simp only [if_true]
      refine ⟨fun μ => ?_, fun x hx => ?_, fun n h x hx => ?_⟩
      · simp only [List.mem_append, or_imp, forall_and, a1, b1]
        simp [BE.val]
      · simp only [BE.size]
        rcases List.mem_append.1 hx with hx | hx
        · have := a2 x hx; omega
        · have := b2 x hx; omega
      · simp only [BE.scope] at h
        rcases List.mem_append.1 hx with hx | hx
        · exact a3 n h.1 x hx
        · exact b3 n h.2 x hx
    | false => simp
  | .and a b => by
    obtain ⟨a1, a2, a3⟩ := leaves_ok isOr a
    obtain ⟨b1, b2, b3⟩ := leaves_ok isOr b
    unfold leaves
    cases isOr with
    | false =>
      simp only [Bool.false_eq_true, if_false]
      refine ⟨fun μ => ?_, fun x hx => ?_, fun n h x hx => ?_⟩
      · simp only [List.mem_append, or_imp, forall_and, a1, b1]
        simp [BE.val]
      · simp only [BE.size]
        rcases List.mem_append.1 hx with hx | hx
        · have := a2 x hx; omega
        · have := b2 x hx; omega
      · simp only [BE.scope] at h
        rcases List.mem_append.1 hx with hx | hx
        · exact a3 n h.1 x hx
        · exact b3 n h.2 x hx
    | true => simp
  | .not _ => by unfold leaves; simp
  | .lit _ => by unfold leaves; simp
  | .var _ => by unfold leaves; simp
  | .pred _ => by unfold leaves; simp
  | .cmp .. => by unfold leaves; simp
  | .cnt .. => by unfold leaves; simp
  | .impl .. => by unfold leaves; simp
  | .rimpl .. => by unfold leaves; simp
  | .equiv .. => by unfold leaves; simp
  | .xor .. => by unfold leaves; simp
  | .forall_ .. => by unfold leaves; simp
  | .exists_ .. => by unfold leaves; simp

theorem mem_withSign {p : Bool} {xs : List (Bool × BE)} {e : BE} :
    e ∈ withSign p xs ↔ (p, e) ∈ xs := by
  unfold withSign
  simp only [List.mem_map, List.mem_filter, decide_eq_true_eq]
  constructor
  · rintro ⟨⟨q, e'⟩, ⟨h1, rfl⟩, rfl⟩; exact h1
  · intro h; exact ⟨(p, e), ⟨h, rfl⟩, rfl⟩

theorem mem_nots {e : BE} : ∀ es : List BE, e ∈ nots es ↔ BE.not e ∈ es := by
  intro es
  induction es with
  | nil => simp [nots]
  | cons x es ih => cases x <;> simp [nots, ih]

theorem mem_plains {e : BE} : ∀ es : List BE, e ∈ plains es ↔ e ∈ es ∧ ∀ x, e ≠ .not x := by
  intro es
  induction es with
  | nil => simp [plains]
  | cons x es ih =>
    cases x <;> simp only [plains, List.mem_cons, ih] <;>
    · constructor
      · first
        | (rintro (h | h)
           · subst h; simp
           · exact ⟨Or.inr h.1, h.2⟩)
        | (intro h; exact ⟨Or.inr h.1, h.2⟩)
      · rintro ⟨h | h, h2⟩
        · first
          | exact Or.inl h
          | exact absurd h (h2 _)
        · first
          | exact Or.inr ⟨h, h2⟩
          | exact ⟨h, h2⟩

theorem plains_nots {b : Bool} {es : List BE} {μ} :
    (∃ e ∈ es, e.val I μ = b) ↔
      (∃ e ∈ plains es, e.val I μ = b) ∨ (∃ e ∈ nots es, e.val I μ = !b) := by
  constructor
  · rintro ⟨e, he, hv⟩
    by_cases h : ∃ x, e = .not x
    · obtain ⟨x, rfl⟩ := h
      refine Or.inr ⟨x, (mem_nots _).2 he, ?_⟩
      rw [← hv]; simp [BE.val]
    · exact Or.inl ⟨e, (mem_plains _).2 ⟨he, fun x hx => h ⟨x, hx⟩⟩, hv⟩
  · rintro (⟨e, he, hv⟩ | ⟨e, he, hv⟩)
    · exact ⟨e, ((mem_plains _).1 he).1, hv⟩
    · exact ⟨.not e, (mem_nots _).1 he, by simp [BE.val, hv]⟩

/-! ### Elements of clauses -/

theorem negElems_ok {f : St → BE → St × FE} {Q : Nat → BE → Prop}
    (hf : StepOk I f .fresh Q (fun e μ => e.val I μ)) (hQ : Mono Q) :
    ∀ (es : List BE) (s : St) (acc : List FE) (mv : List BE), Inv I s →
    (∀ a ∈ es, Q s.decls.length a) → (∀ e ∈ acc, e.lt s.decls.length) →
    Post I s (negElems f s es acc mv).1 (fun _ => True) ∧
    (∀ e ∈ (negElems f s es acc mv).2.1, e.lt (negElems f s es acc mv).1.decls.length) ∧
    (∀ e ∈ (negElems f s es acc mv).2.2, e ∈ mv ∨ ∃ a ∈ es, e = .not a) ∧
    ∀ μ, Canon I (negElems f s es acc mv).1 μ → Roots I (negElems f s es acc mv).1 μ →
      (((∃ e ∈ (negElems f s es acc mv).2.1, FE.val μ e = false) ∨
          ∃ e ∈ (negElems f s es acc mv).2.2, e.val I μ = true) ↔
        ((∃ e ∈ acc, FE.val μ e = false) ∨ (∃ e ∈ mv, e.val I μ = true) ∨
          ∃ a ∈ es, a.val I μ = false)) := by
  intro es
  induction es with
  | nil =>
    intro s acc mv hi _ ha
    exact ⟨Post.refl hi, ha, fun e he => Or.inl he, fun μ _ _ => by simp [negElems]⟩
  | cons a es ih =>
    intro s acc mv hi hq ha
    unfold negElems
    split
    · obtain ⟨i1, i2, i3, i4⟩ := ih s acc (mv ++ [.not a]) hi
        (fun b hb => hq b (List.mem_cons_of_mem _ hb)) ha
      refine ⟨i1, i2, fun e he => ?_, fun μ hc hr => ?_⟩
      · rcases i3 e he with h | ⟨b, hb, h⟩
        · rcases List.mem_append.1 h with h | h
          · exact Or.inl h
          · exact Or.inr ⟨a, by simp, List.mem_singleton.1 h⟩
        · exact Or.inr ⟨b, List.mem_cons_of_mem _ hb, h⟩
      · rw [i4 μ hc hr]
        simp only [List.mem_append, List.mem_cons, List.not_mem_nil, or_false, or_and_right,
          exists_or, exists_eq_left, or_assoc, BE.val, Bool.not_eq_true']
    · have h1 := hf s a hi (hq a (by simp))
      have hv := h1.val trivial
      have hq' : ∀ x ∈ es, Q (f s a).1.decls.length x := fun b hb =>
        hQ _ _ _ h1.post.ext.len (hq b (List.mem_cons_of_mem _ hb))
      have ha' : ∀ e ∈ acc, e.lt (f s a).1.decls.length := fun e he =>
        (ha e he).mono h1.post.ext.len
      have hmem : ∀ e : BE, (e ∈ mv ∨ ∃ b ∈ es, e = .not b) →
          e ∈ mv ∨ ∃ b ∈ a :: es, e = .not b := by
        rintro e (h | ⟨b, hb, h⟩)
        · exact Or.inl h
        · exact Or.inr ⟨b, List.mem_cons_of_mem _ hb, h⟩
      simp only
      cases hr : (f s a).2 with
      | lit b =>
        rw [hr] at hv
        cases b with
        | true =>
          simp only [if_true]
          obtain ⟨i1, i2, i3, i4⟩ := ih (f s a).1 acc mv h1.post.inv hq' ha'
          refine ⟨(h1.post.trans hi i1).congr fun _ _ _ => by simp [tgtP], i2,
            fun e he => hmem e (i3 e he), fun μ hc hr' => ?_⟩
          rw [i4 μ hc hr']
          have := hv.val μ (i1.canon h1.post.inv hc) (i1.roots hc hr')
          rw [lit_val] at this
          simp [← this]
        | false =>
          simp only [Bool.false_eq_true, if_false]
          refine ⟨h1.post, fun e he => ?_, fun e he => Or.inl he, fun μ hc hr' => ?_⟩
          · rw [List.mem_singleton.1 he]; trivial
          · have := hv.val μ hc hr'
            rw [lit_val] at this
            simp [← this, lit_val]
      | var v =>
        rw [hr] at hv
        simp only
        obtain ⟨i1, i2, i3, i4⟩ := ih (f s a).1 (acc ++ [.var v]) mv h1.post.inv hq' (by
          intro e he
          rcases List.mem_append.1 he with h | h
          · exact ha' e h
          · rw [List.mem_singleton.1 h]; exact hv.lt)
        refine ⟨(h1.post.trans hi i1).congr fun _ _ _ => by simp [tgtP], i2,
          fun e he => hmem e (i3 e he), fun μ hc hr' => ?_⟩
        rw [i4 μ hc hr']
        have := hv.val μ (i1.canon h1.post.inv hc) (i1.roots hc hr')
        simp only [List.mem_append, List.mem_cons, List.not_mem_nil, or_false, or_and_right,
          exists_or, exists_eq_left, this, or_assoc]
        constructor
        · rintro (h | h | h | h) <;> simp [h]
        · rintro (h | h | h | h) <;> simp [h]

theorem posElems_ok {f : St → BE → St × FE} {Q : Nat → BE → Prop}
    (hf : StepOk I f .fresh Q (fun e μ => e.val I μ)) (hQ : Mono Q) :
    ∀ (es : List BE) (s : St) (acc na : List FE), Inv I s →
    (∀ a ∈ es, Q s.decls.length a) → (∀ e ∈ acc, e.lt s.decls.length) →
    (∀ e ∈ na, e.lt s.decls.length) →
    Post I s (posElems f s es acc na).1 (fun _ => True) ∧
    (∀ e ∈ (posElems f s es acc na).2.1, e.lt (posElems f s es acc na).1.decls.length) ∧
    (∀ e ∈ (posElems f s es acc na).2.2, e.lt (posElems f s es acc na).1.decls.length) ∧
    ∀ μ, Canon I (posElems f s es acc na).1 μ → Roots I (posElems f s es acc na).1 μ →
      (((∃ e ∈ (posElems f s es acc na).2.1, FE.val μ e = true) ∨
          ∃ e ∈ (posElems f s es acc na).2.2, FE.val μ e = false) ↔
        ((∃ e ∈ acc, FE.val μ e = true) ∨ (∃ e ∈ na, FE.val μ e = false) ∨
          ∃ a ∈ es, a.val I μ = true)) := by
  intro es
  induction es with
  | nil =>
    intro s acc na hi _ ha hna
    exact ⟨Post.refl hi, ha, hna, fun μ _ _ => by simp [posElems]⟩
  | cons a es ih =>
    intro s acc na hi hq ha hna
    have h1 := hf s a hi (hq a (by simp))
    have hv := h1.val trivial
    have hq' : ∀ x ∈ es, Q (f s a).1.decls.length x := fun b hb =>
      hQ _ _ _ h1.post.ext.len (hq b (List.mem_cons_of_mem _ hb))
    have ha' : ∀ e ∈ acc, e.lt (f s a).1.decls.length := fun e he =>
      (ha e he).mono h1.post.ext.len
    have hna' : ∀ e ∈ na, e.lt (f s a).1.decls.length := fun e he =>
      (hna e he).mono h1.post.ext.len
    unfold posElems
    simp only
    cases hr : (f s a).2 with
    | lit b =>
      rw [hr] at hv
      cases b with
      | false =>
        simp only [Bool.false_eq_true, if_false]
        obtain ⟨i1, i2, i3, i4⟩ := ih (f s a).1 acc na h1.post.inv hq' ha' hna'
        refine ⟨(h1.post.trans hi i1).congr fun _ _ _ => by simp [tgtP], i2, i3,
          fun μ hc hr' => ?_⟩
        rw [i4 μ hc hr']
        have := hv.val μ (i1.canon h1.post.inv hc) (i1.roots hc hr')
        rw [lit_val] at this
        simp [← this]
      | true =>
        simp only [if_true]
        refine ⟨h1.post, fun e he => ?_, fun e he => by simp at he, fun μ hc hr' => ?_⟩
        · rw [List.mem_singleton.1 he]; trivial
        · have := hv.val μ hc hr'
          rw [lit_val] at this
          simp [← this, lit_val]
    | var v =>
      rw [hr] at hv
      simp only
      obtain ⟨i1, i2, i3, i4⟩ := ih (f s a).1 (acc ++ [.var v]) na h1.post.inv hq' (by
        intro e he
        rcases List.mem_append.1 he with h | h
        · exact ha' e h
        · rw [List.mem_singleton.1 h]; exact hv.lt) hna'
      refine ⟨(h1.post.trans hi i1).congr fun _ _ _ => by simp [tgtP], i2, i3, fun μ hc hr' => ?_⟩
      rw [i4 μ hc hr']
      have := hv.val μ (i1.canon h1.post.inv hc) (i1.roots hc hr')
      simp only [List.mem_append, List.mem_cons, List.not_mem_nil, or_false, or_and_right,
        exists_or, exists_eq_left, this, or_assoc]
      constructor
      · rintro (h | h | h | h) <;> simp [h]
      · rintro (h | h | h | h) <;> simp [h]

/-! ### The operators -/

/-- Contexts that occur: a negated context is never the root context, and an expression in the
root context is bound to true. -/
def CtxOk (c : Ctx) (tgt : Tgt) : Prop :=
  (c.neg = true → c.b ≠ .root) ∧ (c.b = .root → tgt = .tru)

/-- `f` flattens expressions of size at most `n` correctly. -/
def FlatOk (I : Interp) (n : Nat) (f : St → Ctx → Tgt → BE → St × FE) : Prop :=
  ∀ s c tgt e, Inv I s → CtxOk c tgt → tgtLt s.decls.length tgt → e.scope s.decls.length →
    e.size ≤ n → Ok I s (f s c tgt e) tgt (fun μ => e.val I μ != c.neg)

/-- In scope and of bounded size. -/
def inQ (n : Nat) : Nat → BE → Prop := fun m e => e.scope m ∧ e.size ≤ n

theorem mono_inQ (n : Nat) : Mono (inQ n) := fun _ _ e h he => ⟨scope_mono h e he.1, he.2⟩

theorem up_ne_root (b : BCtx) : b.up ≠ .root := by cases b <;> simp [BCtx.up]
theorem dn_ne_root (b : BCtx) : b.dn ≠ .root := by cases b <;> simp [BCtx.dn]

theorem ctxOk_ne {b : BCtx} (h : b ≠ .root) (neg : Bool) (tgt : Tgt) : CtxOk ⟨b, neg⟩ tgt :=
  ⟨fun _ => h, fun h' => absurd h' h⟩

section ops

variable {n : Nat} {f : St → Ctx → Tgt → BE → St × FE} (hf : FlatOk I n f)
include hf

theorem step_fresh {b : BCtx} (hb : b ≠ .root) : StepOk I (fun s e => f s ⟨b, false⟩ .fresh e)
    .fresh (inQ n) (fun e μ => e.val I μ) := fun s e hi hq =>
  (hf s _ .fresh e hi (ctxOk_ne hb _ _) trivial hq.1 hq.2).congr hi fun μ _ _ => by simp

theorem flatQuant_ok {s : St} (hi : Inv I s) (conj : Bool) {ec : Ctx} (hec : ec.b ≠ .root)
    (b : BCtx) {tgt : Tgt} (ht : tgtLt s.decls.length tgt) {es : List BE}
    (hq : ∀ e ∈ es, inQ n s.decls.length e) :
    Ok I s (flatQuant f s conj ec b tgt es) tgt (fun μ =>
      if conj then es.all (fun e => e.val I μ != ec.neg)
      else es.any (fun e => e.val I μ != ec.neg)) := by
  have hst : StepOk I (fun s e => f s ec .fresh e) .fresh (inQ n)
      (fun e μ => e.val I μ != ec.neg) := fun s e hi hq =>
    hf s _ .fresh e hi (ctxOk_ne hec _ _) trivial hq.1 hq.2
  unfold flatQuant
  cases conj with
  | true => exact (elemsAll_ok hst (mono_inQ n) hi hq b ht).congr hi fun μ _ _ => by simp
  | false => exact (elemsAny_ok hst (mono_inQ n) hi hq b ht).congr hi fun μ _ _ => by simp

theorem flatClause_ok {s : St} (hi : Inv I s) (b : BCtx) {tgt : Tgt}
    (ht : tgtLt s.decls.length tgt) {pos neg : List BE}
    (hp : ∀ e ∈ pos, inQ n s.decls.length e)
    (hn : ∀ e ∈ neg, e.scope s.decls.length ∧ e.size + 1 ≤ n) :
    Ok I s (flatClause f s b tgt pos neg) tgt (fun μ =>
      pos.any (fun e => e.val I μ) || neg.any (fun e => !(e.val I μ))) := by
  have hne : ∀ e ∈ nots pos ++ plains neg, e.scope s.decls.length ∧ e.size + 1 ≤ n := by
    intro e he
    rcases List.mem_append.1 he with h | h
    · have := hp _ ((mem_nots _).1 h)
      simp only [inQ, BE.scope, BE.size] at this
      exact ⟨this.1, by omega⟩
    · exact hn e ((mem_plains _).1 h).1
  obtain ⟨n1, n2, n3, n4⟩ := negElems_ok (step_fresh hf (dn_ne_root b)) (mono_inQ n)
    (nots pos ++ plains neg) s [] [] hi (fun e he => ⟨(hne e he).1, by have := (hne e he).2; omega⟩)
    (by simp)
  unfold flatClause
  simp only
  generalize negElems (fun s e => f s ⟨b.dn, false⟩ .fresh e) s (nots pos ++ plains neg) [] [] = r
    at n1 n2 n3 n4 ⊢
  have hpe : ∀ e ∈ plains pos ++ nots neg ++ r.2.2, inQ n r.1.decls.length e := by
    intro e he
    apply mono_inQ n _ _ e n1.ext.len
    rcases List.mem_append.1 he with h | h
    · rcases List.mem_append.1 h with h | h
      · exact hp e ((mem_plains _).1 h).1
      · have := hn _ ((mem_nots _).1 h)
        simp only [BE.scope, BE.size] at this
        exact ⟨this.1, by omega⟩
    · rcases n3 e h with h | ⟨a, ha, rfl⟩
      · simp at h
      · have := hne a ha
        refine ⟨?_, ?_⟩
        · simpa only [BE.scope] using this.1
        · simp only [BE.size]; omega
  obtain ⟨p1, p2, p3, p4⟩ := posElems_ok (step_fresh hf (up_ne_root b)) (mono_inQ n)
    (plains pos ++ nots neg ++ r.2.2) r.1 [] r.2.1 n1.inv hpe (by simp) n2
  generalize posElems (fun s e => f s ⟨b.up, false⟩ .fresh e) r.1
    (plains pos ++ nots neg ++ r.2.2) [] r.2.1 = q at p1 p2 p3 p4 ⊢
  refine Ok.after hi n1 (Ok.after n1.inv p1 ?_)
  refine (callClause_ok p1.inv b (ht.mono (Nat.le_trans n1.ext.len p1.ext.len)) p2 p3).congr p1.inv
    fun μ hc hr => bool_ext ?_
  have e4 := n4 μ (p1.canon n1.inv hc) (p1.roots hc hr)
  rw [clauseVal_iff, p4 μ hc hr]
  simp only [Bool.or_eq_true, List.any_eq_true, Bool.not_eq_true']
  rw [plains_nots (b := true) (es := pos), plains_nots (b := false) (es := neg)]
  simp only [List.mem_append, or_and_right, exists_or, List.not_mem_nil, false_and, exists_false,
    false_or, Bool.not_true, Bool.not_false] at e4 ⊢
  constructor
  · rintro (h | (h | h) | h)
    · rcases e4.1 (Or.inl h) with h | h <;> simp [h]
    · simp [h]
    · simp [h]
    · rcases e4.1 (Or.inr h) with h | h <;> simp [h]
  · rintro ((h | h) | h | h)
    · simp [h]
    · rcases e4.2 (Or.inl h) with h | h <;> simp [h]
    · rcases e4.2 (Or.inr h) with h | h <;> simp [h]
    · simp [h]

theorem annRes_ok {s : St} {r tgt W} (hi : Inv I s) (h : Ok I s r tgt W) (b : BCtx) :
    Ok I s (annRes r b) tgt W := h.then hi (annFE_post h.post.inv r.2 b)

theorem flatAnd_ok {s : St} (hi : Inv I s) (b : BCtx) (neg : Bool) {tgt : Tgt}
    (ht : tgtLt s.decls.length tgt) {x y : BE} (hx : x.scope s.decls.length)
    (hy : y.scope s.decls.length) (hs : x.size + y.size ≤ n) :
    Ok I s (flatAnd f s b neg tgt x y) tgt
      (fun μ => (x.val I μ != neg) && (y.val I μ != neg)) := by
  unfold flatAnd
  have sx := size_pos x
  have sy := size_pos y
  by_cases htt : tgt = .tru
  · rw [if_pos htt]
    subst htt
    obtain ⟨x1, x2, x3⟩ := leaves_ok (I := I) neg x
    obtain ⟨y1, y2, y3⟩ := leaves_ok (I := I) neg y
    refine postEach_tru (Q := inQ n) (V := fun e μ => e.val I μ != neg) ?_ (mono_inQ n) hi ?_ ?_
    · intro s e hi hq
      cases neg with
      | true =>
        exact hf s ⟨.neg, true⟩ .tru e hi (ctxOk_ne (by simp) _ _) trivial hq.1 hq.2
      | false =>
        exact hf s ⟨.root, false⟩ .tru e hi ⟨by simp, fun _ => rfl⟩ trivial hq.1 hq.2
    · intro e he
      rcases List.mem_append.1 he with h | h
      · exact ⟨x3 _ hx e h, by have := x2 e h; omega⟩
      · exact ⟨y3 _ hy e h, by have := y2 e h; omega⟩
    · intro μ
      simp only [Bool.and_eq_true, List.mem_append, or_imp, forall_and, x1, y1]
  · rw [if_neg htt]
    have ax := aggr_ok (I := I) false x (!neg)
    have ay := aggr_ok (I := I) false y (!neg)
    refine annRes_ok hf hi ?_ b
    refine (flatQuant_ok hf hi true (ec := ⟨b.up, false⟩) (up_ne_root b) b ht ?_).congr hi ?_
    · have hall : ∀ z ∈ aggr false (!neg) x ++ aggr false (!neg) y,
          z.2.scope s.decls.length ∧ z.2.size + 1 ≤ n := by
        intro z hz
        rcases List.mem_append.1 hz with h | h
        · exact ⟨ax.scope _ hx z h, by have := ax.size z h; omega⟩
        · exact ⟨ay.scope _ hy z h, by have := ay.size z h; omega⟩
      intro e he
      rcases List.mem_append.1 he with h | h
      · have := hall _ (mem_withSign.1 h)
        exact ⟨this.1, by have := this.2; simp only at this; omega⟩
      · obtain ⟨e', he', rfl⟩ := List.mem_map.1 h
        have := hall _ (mem_withSign.1 he')
        refine ⟨by simpa only [BE.scope] using this.1, ?_⟩
        have := this.2
        simp only [BE.size] at this ⊢; omega
    · intro μ _ _
      apply bool_ext
      simp only [if_true, List.all_eq_true, Bool.and_eq_true]
      have e1 := ax.and rfl μ
      have e2 := ay.and rfl μ
      have hx' : (x.val I μ != neg) = true ↔ x.val I μ = !neg := by
        cases x.val I μ <;> cases neg <;> simp
      have hy' : (y.val I μ != neg) = true ↔ y.val I μ = !neg := by
        cases y.val I μ <;> cases neg <;> simp
      rw [hx', hy', ← e1, ← e2]
      constructor
      · intro h
        have hz : ∀ z ∈ aggr false (!neg) x ++ aggr false (!neg) y, gval I μ z = true := by
          rintro ⟨q, e⟩ hz
          cases q with
          | true =>
            have := h e (List.mem_append_left _ (mem_withSign.2 hz))
            simpa [gval] using this
          | false =>
            have := h (.not e) (List.mem_append_right _ (List.mem_map_of_mem (mem_withSign.2 hz)))
            simpa [gval, BE.val] using this
        exact ⟨fun z h => hz z (List.mem_append_left _ h), fun z h => hz z (List.mem_append_right _ h)⟩
      · rintro ⟨h1, h2⟩ e he
        have hz : ∀ z ∈ aggr false (!neg) x ++ aggr false (!neg) y, gval I μ z = true := by
          intro z hz
          rcases List.mem_append.1 hz with h | h
          · exact h1 z h
          · exact h2 z h
        rcases List.mem_append.1 he with h | h
        · have := hz _ (mem_withSign.1 h)
          simpa [gval] using this
        · obtain ⟨e', he', rfl⟩ := List.mem_map.1 h
          have := hz _ (mem_withSign.1 he')
          simpa [gval, BE.val] using this

theorem flatOr_ok {s : St} (hi : Inv I s) (b : BCtx) (neg : Bool) {tgt : Tgt}
    (ht : tgtLt s.decls.length tgt) {x y : BE} (hx : x.scope s.decls.length)
    (hy : y.scope s.decls.length) (hs : x.size + y.size ≤ n) :
    Ok I s (flatOr f s b neg tgt x y) tgt
      (fun μ => (x.val I μ != neg) || (y.val I μ != neg)) := by
  have sx := size_pos x
  have sy := size_pos y
  have ax := aggr_ok (I := I) true x (!neg)
  have ay := aggr_ok (I := I) true y (!neg)
  have hall : ∀ z ∈ aggr true (!neg) x ++ aggr true (!neg) y,
      z.2.scope s.decls.length ∧ z.2.size + 1 ≤ n := by
    intro z hz
    rcases List.mem_append.1 hz with h | h
    · exact ⟨ax.scope _ hx z h, by have := ax.size z h; omega⟩
    · exact ⟨ay.scope _ hy z h, by have := ay.size z h; omega⟩
  have hsem : ∀ μ, ((x.val I μ != neg) || (y.val I μ != neg)) = true ↔
      (∃ e ∈ withSign true (aggr true (!neg) x ++ aggr true (!neg) y), e.val I μ = true) ∨
      (∃ e ∈ withSign false (aggr true (!neg) x ++ aggr true (!neg) y), e.val I μ = false) := by
    intro μ
    have e1 := ax.or rfl μ
    have e2 := ay.or rfl μ
    have hx' : (x.val I μ != neg) = true ↔ x.val I μ = !neg := by
      cases x.val I μ <;> cases neg <;> simp
    have hy' : (y.val I μ != neg) = true ↔ y.val I μ = !neg := by
      cases y.val I μ <;> cases neg <;> simp
    rw [Bool.or_eq_true, hx', hy', ← e1, ← e2]
    have : ((∃ z ∈ aggr true (!neg) x, gval I μ z = true) ∨
        ∃ z ∈ aggr true (!neg) y, gval I μ z = true) ↔
        ∃ z ∈ aggr true (!neg) x ++ aggr true (!neg) y, gval I μ z = true := by
      simp only [List.mem_append, or_and_right, exists_or]
    rw [this]
    simp only [mem_withSign]
    constructor
    · rintro ⟨⟨q, e⟩, hz, hv⟩
      cases q with
      | true => exact Or.inl ⟨e, hz, by simpa [gval] using hv⟩
      | false => exact Or.inr ⟨e, hz, by simpa [gval] using hv⟩
    · rintro (⟨e, he, hv⟩ | ⟨e, he, hv⟩)
      · exact ⟨_, he, by simp [gval, hv]⟩
      · exact ⟨_, he, by simp [gval, hv]⟩
  unfold flatOr
  simp only
  generalize aggr true (!neg) x ++ aggr true (!neg) y = els at hall hsem ⊢
  have hq : ∀ p, ∀ e ∈ withSign p els, e.scope s.decls.length ∧ e.size + 1 ≤ n :=
    fun p e he => hall _ (mem_withSign.1 he)
  by_cases hw : withSign false els = []
  · rw [if_pos hw]
    refine annRes_ok hf hi ?_ b
    refine (flatQuant_ok hf hi false (ec := ⟨b.up, false⟩) (up_ne_root b) b ht ?_).congr hi ?_
    · intro e he
      exact ⟨(hq _ e he).1, by have := (hq _ e he).2; omega⟩
    · intro μ _ _
      apply bool_ext
      rw [hsem μ, hw]
      simp [List.any_eq_true]
  · rw [if_neg hw]
    refine annRes_ok hf hi ?_ b
    refine (flatClause_ok hf hi b ht ?_ (hq false)).congr hi ?_
    · intro e he
      exact ⟨(hq _ e he).1, by have := (hq _ e he).2; omega⟩
    · intro μ _ _
      apply bool_ext
      rw [hsem μ]
      simp [List.any_eq_true]

theorem flatImpl_ok {s : St} (hi : Inv I s) {c : Ctx} {tgt : Tgt} (hc : CtxOk c tgt)
    (ht : tgtLt s.decls.length tgt) {x y : BE} (hx : x.scope s.decls.length)
    (hy : y.scope s.decls.length) (hs : x.size + y.size ≤ n) :
    Ok I s (flatImpl f s c tgt x y) tgt
      (fun μ => (!(x.val I μ) || y.val I μ) != c.neg) := by
  have sx := size_pos x
  have sy := size_pos y
  unfold flatImpl
  have hneg : c.b = .root → c.neg = false := by
    intro h
    cases hn : c.neg with
    | false => rfl
    | true => exact absurd h (hc.1 hn)
  split
  · rename_i h
    obtain ⟨h1, rfl, h3⟩ := h
    have hn := hneg h1
    cases hp : x.pval with
    | true =>
      rw [if_pos rfl]
      exact (hf s Ctx.root .tru y hi ⟨by simp [Ctx.root], fun _ => rfl⟩ trivial hy
        (by omega)).congr hi fun μ _ _ => by
          simp [pval_eq I μ h3, hp, hn, Ctx.root]
    | false =>
      simp only [Bool.false_eq_true, if_false]
      have hval : ∀ μ, ((!(x.val I μ) || y.val I μ) != c.neg) = true := by
        intro μ; simp [pval_eq I μ h3, hp, hn]
      exact ⟨(Post.refl hi).congr fun μ _ _ => by simp [tgtP, hval μ],
        fun _ => ⟨trivial, fun μ _ _ => by rw [hval μ]; rfl⟩⟩
  · split
    · rename_i _ h
      obtain ⟨h1, rfl, h3⟩ := h
      have hn := hneg h1
      cases hp : y.pval with
      | false =>
        simp only [Bool.false_eq_true, if_false]
        exact (hf s ⟨.neg, true⟩ .tru x hi (ctxOk_ne (by simp) _ _) trivial hx
          (by omega)).congr hi fun μ _ _ => by
            simp [pval_eq I μ h3, hp, hn]
      | true =>
        rw [if_pos rfl]
        have hval : ∀ μ, ((!(x.val I μ) || y.val I μ) != c.neg) = true := by
          intro μ; simp [pval_eq I μ h3, hp, hn]
        exact ⟨(Post.refl hi).congr fun μ _ _ => by simp [tgtP, hval μ],
          fun _ => ⟨trivial, fun μ _ _ => by rw [hval μ]; rfl⟩⟩
    · split
      · rename_i hn
        refine annRes_ok hf hi ?_ _
        refine (flatQuant_ok hf hi true (ec := ⟨c.b.dn.up, false⟩) (up_ne_root _) c.b.dn ht
          ?_).congr hi ?_
        · intro e he
          simp only [List.mem_cons, List.not_mem_nil, or_false] at he
          rcases he with rfl | rfl
          · exact ⟨hx, by omega⟩
          · exact ⟨by simpa only [BE.scope] using hy, by simp only [BE.size]; omega⟩
        · intro μ _ _
          simp [hn, BE.val]
      · rename_i hn
        refine annRes_ok hf hi ?_ _
        refine (flatClause_ok hf hi c.b ht (pos := [y]) (neg := [x]) ?_ ?_).congr hi ?_
        · intro e he
          rw [List.mem_singleton.1 he]
          exact ⟨hy, by omega⟩
        · intro e he
          rw [List.mem_singleton.1 he]
          exact ⟨hx, by omega⟩
        · intro μ _ _
          simp [hn, Bool.or_comm]

theorem flatEqTru_ok {s : St} (hi : Inv I s) (b : BCtx) (xor : Bool) {x y : BE}
    (hx : x.scope s.decls.length) (hy : y.scope s.decls.length) (hs : x.size + y.size ≤ n)
    (hp : x.par = true → x.pval = xor) :
    Ok I s (flatEqTru f s b xor x y) .tru (fun μ => (x.val I μ == y.val I μ) != xor) := by
  have sx := size_pos x
  have sy := size_pos y
  unfold flatEqTru
  split
  · rename_i hpar
    exact (hf s ⟨b.dn, true⟩ .tru y hi (ctxOk_ne (dn_ne_root b) _ _) trivial hy (by omega)).congr hi
      fun μ _ _ => by
        simp only [pval_eq I μ hpar, hp hpar]
        cases xor <;> cases y.val I μ <;> rfl
  · have h1 := hf s ⟨.mix, false⟩ .fresh x hi (ctxOk_ne (by simp) _ _) trivial hx (by omega)
    have hv := h1.val trivial
    have hy' := scope_mono h1.post.ext.len y hy
    simp only
    cases hr : (f s ⟨.mix, false⟩ .fresh x).2 with
    | lit v =>
      rw [hr] at hv
      simp only
      refine Ok.after hi h1.post ?_
      split
      · rename_i hvx
        exact (hf _ ⟨b.dn, true⟩ .tru y h1.post.inv (ctxOk_ne (dn_ne_root b) _ _) trivial hy'
          (by omega)).congr h1.post.inv fun μ hc hr => by
            have := hv.val μ hc hr
            simp only [lit_val, Bool.bne_false] at this
            rw [← this, hvx]
            cases xor <;> cases y.val I μ <;> rfl
      · rename_i hvx
        exact (hf _ ⟨b, false⟩ .tru y h1.post.inv ⟨by simp, fun _ => rfl⟩ trivial hy'
          (by omega)).congr h1.post.inv fun μ hc hr => by
            have := hv.val μ hc hr
            simp only [lit_val, Bool.bne_false] at this
            rw [← this]
            revert hvx
            cases xor <;> cases v <;> cases y.val I μ <;> simp
    | var v =>
      rw [hr] at hv
      simp only
      have h2 := hf (f s ⟨.mix, false⟩ .fresh x).1 ⟨.mix, xor⟩ (.var v) y h1.post.inv
        (ctxOk_ne (by simp) _ _) hv.lt hy' (by omega)
      have h3 := ann_post h2.post.inv v .mix
      have hp : Post I s (addCtxAnn (f (f s ⟨.mix, false⟩ .fresh x).1 ⟨.mix, xor⟩ (.var v) y).1 v
          .mix) (fun μ => ((x.val I μ == y.val I μ) != xor) = true) := by
        refine ((h1.post.trans hi h2.post).trans hi h3).congr fun μ hc hr => ?_
        have hcx : Canon I (f s ⟨.mix, false⟩ .fresh x).1 μ :=
          h2.post.canon h1.post.inv (h3.canon h2.post.inv hc)
        have hrx : Roots I (f s ⟨.mix, false⟩ .fresh x).1 μ :=
          (h1.post.sem μ hcx).2 ⟨hr, trivial⟩
        have := hv.val μ hcx hrx
        simp only [FE.val, Bool.bne_false] at this
        simp only [tgtP, this, true_and, and_true]
        cases xor <;> cases x.val I μ <;> cases y.val I μ <;> simp
      exact ⟨hp, fun _ => ⟨trivial, fun μ hc hr => (((hp.sem μ hc).1 hr).2).symm⟩⟩

theorem eqTail_ok {s : St} (hi : Inv I s) (b : BCtx) (xor : Bool) {tgt : Tgt}
    (ht : tgtLt s.decls.length tgt) {x y : FE} (hx : x.lt s.decls.length)
    (hy : y.lt s.decls.length) :
    Ok I s (eqTail s b xor tgt x y) tgt (fun μ => (x.val μ == y.val μ) != xor) := by
  have hval : ∀ μ, (eqCall xor x y).val I μ = ((x.val μ == y.val μ) != xor) := by
    intro μ; unfold eqCall; cases xor <;> simp [FC.val, bne]
  have hlt : (eqCall xor x y).lt s.decls.length := by
    intro z hz
    unfold eqCall at hz
    cases xor <;> simp [FC.occ] at hz <;> rcases hz with rfl | rfl | rfl | rfl <;> assumption
  have hmain : Ok I s (match cseFind s (eqCall xor x y) with
      | some r => bindPos (annFE (cseChange s r b) r b) b tgt r
      | none => post s b tgt (eqCall xor x y)) tgt (fun μ => (x.val μ == y.val μ) != xor) := by
    split
    · rename_i r hcs
      have hm := hi.cse _ (cseFind_mem hcs)
      have h1 := cseChange_post hi r b
      have h2 := annFE_post h1.inv r b
      refine Ok.after hi h1 (Ok.after h1.inv h2 ?_)
      exact (bindPos_ok h2.inv b (ht.mono (Nat.le_trans h1.ext.len h2.ext.len))
        (hm.1.mono (Nat.le_trans h1.ext.len h2.ext.len))).congr h2.inv fun μ hc hr => by
          have hc' := h2.canon h1.inv hc
          rw [← hm.2 μ (h1.canon hi hc') (h1.roots hc' (h2.roots hc hr)), hval]
    · exact (post_ok hi b ht hlt).congr hi fun μ _ _ => hval μ
  unfold eqTail
  cases x with
  | lit u =>
    cases y with
    | lit v => exact (bindPos_ok hi b ht (e := .lit ((u == v) != xor)) trivial).congr hi fun μ _ _ => rfl
    | var v => exact hmain
  | var u => exact hmain

theorem flatEq_ok {s : St} (hi : Inv I s) (b0 b : BCtx) (xor : Bool) {tgt : Tgt}
    (ht : tgtLt s.decls.length tgt) (hb : b = .root → tgt = .tru)
    {x y : BE} (hx : x.scope s.decls.length)
    (hy : y.scope s.decls.length) (hs : x.size + y.size ≤ n) :
    Ok I s (flatEq f s b0 b xor tgt x y) tgt (fun μ => (x.val I μ == y.val I μ) != xor) := by
  have sx := size_pos x
  have sy := size_pos y
  unfold flatEq
  split
  · rename_i h
    refine (hf s ⟨b, false⟩ tgt y hi ⟨by simp, hb⟩ ht hy (by omega)).congr hi fun μ _ _ => ?_
    rw [pval_eq I μ h.1]
    have := h.2
    revert this
    cases x.pval <;> cases y.val I μ <;> cases xor <;> simp
  · rename_i hxp
    split
    · rename_i h
      refine (hf s ⟨b, false⟩ tgt x hi ⟨by simp, hb⟩ ht hx (by omega)).congr hi fun μ _ _ => ?_
      rw [pval_eq I μ h.1]
      have := h.2
      revert this
      cases y.pval <;> cases x.val I μ <;> cases xor <;> simp
    · rename_i hyp
      split
      · rename_i htt
        subst htt
        split
        · refine (flatEqTru_ok hf hi b0 xor hy hx (by omega) fun hp => ?_).congr hi fun μ _ _ => ?_
          · cases hd : decide (y.pval = xor) with
            | true => simpa using hd
            | false => exact absurd ⟨hp, by simpa using hd⟩ hyp
          · cases x.val I μ <;> cases y.val I μ <;> rfl
        · refine flatEqTru_ok hf hi b0 xor hx hy (by omega) fun hp => ?_
          cases hd : decide (x.pval = xor) with
          | true => simpa using hd
          | false => exact absurd ⟨hp, by simpa using hd⟩ hxp
      · have h0 := hf s ⟨.mix, false⟩ .fresh x hi (ctxOk_ne (by simp) _ _) trivial hx (by omega)
        have h1 := hf (f s ⟨.mix, false⟩ .fresh x).1 ⟨.mix, false⟩ .fresh y h0.post.inv
          (ctxOk_ne (by simp) _ _) trivial (scope_mono h0.post.ext.len y hy) (by omega)
        have v0 := (h0.val trivial).mono h0.post.inv h1.post
        have v1 := h1.val trivial
        refine Ok.after hi h0.post (Ok.after h0.post.inv h1.post ?_)
        refine (eqTail_ok hf h1.post.inv b xor
          (ht.mono (Nat.le_trans h0.post.ext.len h1.post.ext.len)) v0.lt v1.lt).congr h1.post.inv
          fun μ hc hr => ?_
        rw [v0.val μ hc hr, v1.val μ hc hr]
        simp

theorem flatCall_ok {s : St} (hi : Inv I s) {c : Ctx} (conj : Bool) {tgt : Tgt} (hc : CtxOk c tgt)
    (ht : tgtLt s.decls.length tgt) {es : List BE} (hq : ∀ e ∈ es, inQ n s.decls.length e) :
    Ok I s (flatCall f s c conj tgt es) tgt
      (fun μ => (if conj then es.all (fun e => e.val I μ) else es.any (fun e => e.val I μ))
        != c.neg) := by
  unfold flatCall
  simp only
  split
  · rename_i h
    obtain ⟨h1, h2, rfl⟩ := h
    have hn : c.neg = false := by
      cases hn : c.neg with
      | false => rfl
      | true => exact absurd h1 (hc.1 hn)
    rw [hn] at h2 ⊢
    have hcj : conj = true := by simpa using h2
    subst hcj
    refine postEach_tru (Q := inQ n) (V := fun e μ => e.val I μ) ?_ (mono_inQ n) hi hq ?_
    · intro s e hi hq
      exact (hf s ⟨.root, false⟩ .tru e hi ⟨by simp, fun _ => rfl⟩ trivial hq.1 hq.2).congr hi
        fun μ _ _ => by simp
    · intro μ; simp [List.all_eq_true]
  · refine (flatQuant_ok hf hi (conj != c.neg) (ec := ⟨c.b.up, c.neg⟩) (up_ne_root _) c.b ht
      hq).congr hi fun μ _ _ => ?_
    cases conj <;> cases c.neg <;>
      simp [List.not_all_eq_any_not, List.not_any_eq_all_not]

end ops

theorem flat_ok : ∀ n, FlatOk I n (flat n) := by
  intro n
  induction n with
  | zero =>
    intro s c tgt e _ _ _ _ hs
    have := size_pos e
    omega
  | succ n ih =>
    intro s c tgt e hi hc ht hsc hs
    unfold flat
    split
    · rename_i hp
      exact (bindFE_ok hi c ht (e := .lit e.pval) trivial).congr hi fun μ _ _ => by
        rw [pval_eq I μ hp, lit_val]
    · cases e with
      | lit b =>
        refine (bindFE_ok hi c ht (e := .lit b) trivial).congr hi fun μ _ _ => ?_
        simp [BE.val, lit_val]
      | var x =>
        simp only [BE.scope] at hsc
        exact (flatId_ok hi c ht hsc).congr hi fun μ _ _ => by simp [BE.val]
      | pred p =>
        exact (postPred_ok hi c ht (f := .pred p) (by intro x hx; simp [FC.occ] at hx)).congr hi
          fun μ _ _ => by simp [BE.val, FC.val]
      | cmp o t0 t1 d =>
        exact (flatCmp_ok hi c ht hc.1 hc.2 o t0 t1 d).congr hi fun μ _ _ => by simp [BE.val]
      | cnt o es t =>
        simp only [BE.scope, BE.size] at hsc hs
        have hcn : cntCtx o c.b ≠ .root := by
          cases o <;> simp [cntCtx, up_ne_root, dn_ne_root]
        obtain ⟨m1, m2, m3⟩ := mapFlat_ok (step_fresh ih hcn) (mono_inQ n) es s hi
          (fun e he => ⟨(scopes_iff _ es).1 hsc e he, by have := size_le_sizes es e he; omega⟩)
        simp only
        refine Ok.after hi m1 ?_
        refine Ok.congr m1.inv (cmpTail_ok (W := fun μ => (FC.cnt (if c.neg then o.compl else o)
          (mapFlat (fun s e => flat n s ⟨cntCtx o c.b, false⟩ .fresh e) s es).2 t).val I μ)
          m1.inv c (ht.mono m1.ext.len) (eb := .lit true) trivial ?_ fun μ => ?_) fun μ hcn hr => ?_
        · intro x hx
          apply m2
          generalize (mapFlat (fun s e => flat n s ⟨cntCtx o c.b, false⟩ .fresh e) s es).2 = fs at hx
          generalize (if c.neg then o.compl else o) = o' at hx
          cases o' <;> simp [FC.occ] at hx
          · obtain ⟨a, h, rfl⟩ := hx; exact h
          · obtain ⟨a, h, rfl⟩ := hx; exact h
          · obtain ⟨a, h, rfl⟩ := hx; exact h
          · obtain ⟨a, h, rfl⟩ := hx; exact h
          · rcases hx with ⟨a, h, rfl⟩ | ⟨a, h, rfl⟩ <;> exact h
          · rcases hx with ⟨a, h, rfl⟩ | ⟨a, h, rfl⟩ <;> exact h
        · simp [lit_val]
        · simp only [FC.val]
          rw [m3 μ hcn hr]
          simp only [BE.val, vals_eq]
          cases c.neg <;> simp [compl_holds]
      | not e =>
        simp only [BE.scope, BE.size] at hsc hs
        exact (ih s ⟨c.b.dn, !c.neg⟩ tgt e hi (ctxOk_ne (dn_ne_root _) _ _) ht hsc
          (by omega)).congr hi fun μ _ _ => by simp [BE.val]
      | and x y =>
        simp only [BE.scope, BE.size] at hsc hs
        simp only
        split
        · rename_i hn
          exact (flatOr_ok ih hi c.b.dn true ht hsc.1 hsc.2 (by omega)).congr hi fun μ _ _ => by
            simp [BE.val, hn]
        · rename_i hn
          exact (flatAnd_ok ih hi c.b false ht hsc.1 hsc.2 (by omega)).congr hi fun μ _ _ => by
            simp [BE.val, hn]
      | or x y =>
        simp only [BE.scope, BE.size] at hsc hs
        simp only
        split
        · rename_i hn
          exact (flatAnd_ok ih hi c.b.dn true ht hsc.1 hsc.2 (by omega)).congr hi fun μ _ _ => by
            simp [BE.val, hn]
        · rename_i hn
          exact (flatOr_ok ih hi c.b false ht hsc.1 hsc.2 (by omega)).congr hi fun μ _ _ => by
            simp [BE.val, hn]
      | impl x y =>
        simp only [BE.scope, BE.size] at hsc hs
        exact (flatImpl_ok ih hi hc ht hsc.1 hsc.2 (by omega)).congr hi fun μ _ _ => by
          simp [BE.val]
      | rimpl x y =>
        simp only [BE.scope, BE.size] at hsc hs
        exact (flatImpl_ok ih hi hc ht hsc.2 hsc.1 (by omega)).congr hi fun μ _ _ => by
          simp [BE.val]
      | equiv x y =>
        simp only [BE.scope, BE.size] at hsc hs
        refine (flatEq_ok ih hi c.b (if c.neg then c.b.dn else c.b) c.neg ht ?_ hsc.1 hsc.2
          (by omega)).congr hi fun μ _ _ => by simp [BE.val]
        split
        · intro h; exact absurd h (dn_ne_root _)
        · exact hc.2
      | xor x y =>
        simp only [BE.scope, BE.size] at hsc hs
        refine (flatEq_ok ih hi c.b (if c.neg then c.b.dn else c.b) (!c.neg) ht ?_ hsc.1 hsc.2
          (by omega)).congr hi fun μ _ _ => ?_
        · split
          · intro h; exact absurd h (dn_ne_root _)
          · exact hc.2
        · simp only [BE.val]
          cases x.val I μ <;> cases y.val I μ <;> cases c.neg <;> rfl
      | forall_ es =>
        simp only [BE.scope, BE.size] at hsc hs
        refine (flatCall_ok ih hi true hc ht (es := es) fun e he =>
          ⟨(scopes_iff _ es).1 hsc e he, by have := size_le_sizes es e he; omega⟩).congr hi
          fun μ _ _ => ?_
        simp [BE.val, vals_eq, List.all_map, Function.comp_def]
      | exists_ es =>
        simp only [BE.scope, BE.size] at hsc hs
        refine (flatCall_ok ih hi false hc ht (es := es) fun e he =>
          ⟨(scopes_iff _ es).1 hsc e he, by have := size_le_sizes es e he; omega⟩).congr hi
          fun μ _ _ => ?_
        simp [BE.val, vals_eq, List.any_map, Function.comp_def]

theorem flatItem_post {s : St} (hi : Inv I s) {it : Item} (hsc : it.scope s.decls.length) :
    Post I s (flatItem s it) (fun μ => it.holds I μ) := by
  cases it with
  | decl v e =>
    exact (flat_ok e.size s ⟨.mix, false⟩ (.var v) e hi (ctxOk_ne (by simp) _ _) hsc.1 hsc.2
      (Nat.le_refl _)).post.congr fun μ _ _ => by simp [tgtP, Item.holds]
  | con e =>
    exact (flat_ok e.size s Ctx.root .tru e hi ⟨by simp [Ctx.root], fun _ => rfl⟩ trivial hsc
      (Nat.le_refl _)).post.congr fun μ _ _ => by simp [tgtP, Item.holds, Ctx.root]

theorem items_post : ∀ (items : List Item) (s : St), Inv I s →
    (∀ it ∈ items, it.scope s.decls.length) →
    Post I s (items.foldl flatItem s) (fun μ => ∀ it ∈ items, it.holds I μ) := by
  intro items
  induction items with
  | nil => intro s hi _; exact (Post.refl hi).congr fun _ _ _ => by simp
  | cons it items ih =>
    intro s hi hsc
    have h1 := flatItem_post hi (hsc it (by simp))
    have h2 := ih (flatItem s it) h1.inv fun x hx => by
      have := hsc x (List.mem_cons_of_mem _ hx)
      have hl := h1.ext.len
      cases x with
      | decl v e => exact ⟨Nat.lt_of_lt_of_le this.1 hl, scope_mono hl e this.2⟩
      | con e => exact scope_mono hl e this
    exact (h1.trans hi h2).congr fun μ _ _ => by simp

theorem init_get {hr : Bool} {n v : Nat} {d : Decl} (h : (initSt hr n).decls[v]? = some d) :
    d = ⟨true, none, none, none⟩ ∧ v < n := by
  simp only [initSt, List.getElem?_replicate] at h
  split at h
  · cases h; exact ⟨rfl, by assumption⟩
  · cases h

theorem init_inv (hr : Bool) (n : Nat) : Inv I (initSt hr n) := by
  refine ⟨fun v d h hs => ?_, fun v d c h _ hr => ?_, by simp [initSt]⟩
  · rw [(init_get h).1] at hs; cases hs
  · rw [(init_get h).1] at hr; cases hr

theorem init_roots (hr : Bool) (n : Nat) (μ) : Roots I (initSt hr n) μ := by
  refine ⟨rfl, by simp [initSt], fun v d b h hd => ?_, fun v d c h _ hr => ?_⟩
  · rw [(init_get h).1] at hd; cases hd
  · rw [(init_get h).1] at hr; cases hr

theorem init_len (hr : Bool) (n : Nat) : (initSt hr n).decls.length = n := by simp [initSt]

/-- The meaning of a compiled model, with full reification. -/
theorem compile_post {hr : Bool} {n : Nat} {items : List Item} (hsc : ∀ it ∈ items, it.scope n) :
    Post I (initSt hr n) (compile hr n items) (fun μ => ∀ it ∈ items, it.holds I μ) :=
  items_post items _ (init_inv hr n) (by rw [init_len]; exact hsc)

end BoolFlat
end MZ
