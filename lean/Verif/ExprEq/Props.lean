import Verif.ExprEq.Model
/-!
# Properties of the equality of expressions
-/
namespace MZ
namespace ExprEq

/-! ## Specification -/

/-- A compositional meaning of expressions: what each kind of node means, in terms of the
meanings of its parts. `α` is arbitrary: a value, a function from assignments to values, a set
of solutions, … Numbers are given by their values, so that `0.0` and `-0.0` mean the same. The
value of a variable is a function of its declaration. -/
structure Sem (α : Type) where
  nul : α
  int : Ext → α
  flt : Ext → α
  setI : Nat → List Range → α
  setF : Nat → List (Ext × Ext) → α
  setV : Nat → List α → α
  bool : Bool → α
  str : List Nat → α
  var : Nat → α
  unresolved : List Nat → Int → α
  anon : Nat → α
  arr : Nat → List Int → List α → α
  acc : α → List α → α
  fld : α → α → α
  comp : Bool → α → List α → List Nat → α
  ite : List α → α → α
  bin : Nat → α → α → α
  un : Nat → α → α
  call : List Nat → Option Nat → List α → α
  vd : α → α → α → α
  lets : List α → α → α
  ti : Nat → List α → α → α
  tiid : Nat → α

mutual
/-- The meaning of an expression. -/
def sem {α : Type} (S : Sem α) : E → α
  | .nul => S.nul
  | .intU v => S.int (.fin v)
  | .fltU f => S.flt f.val
  | .int _ v => S.int v
  | .flt _ f => S.flt f.val
  | .setI h s => S.setI h.ty s
  | .setF h s => S.setF h.ty (s.map fun p => (p.1.val, p.2.val))
  | .setV h v => S.setV h.ty (semL S v)
  | .bool _ b => S.bool b
  | .str _ s => S.str s
  | .id _ d n i => match d with
    | some d => S.var d
    | none => S.unresolved n i
  | .anon _ a => S.anon a
  | .arr h d es => S.arr h.ty d (semL S es)
  | .acc _ v x => S.acc (sem S v) (semL S x)
  | .fld _ v f => S.fld (sem S v) (sem S f)
  | .comp _ s e g x => S.comp s (sem S e) (semL S g) x
  | .ite _ c e => S.ite (semL S c) (sem S e)
  | .bin _ o l r => S.bin o (sem S l) (sem S r)
  | .un _ o e => S.un o (sem S e)
  | .call _ n d a => S.call n d (semL S a)
  | .vd _ t i e => S.vd (sem S t) (sem S i) (sem S e)
  | .lets _ d b => S.lets (semL S d) (sem S b)
  | .ti h r d => S.ti h.ty (semL S r) (sem S d)
  | .tiid _ a _ => S.tiid a
/-- The meanings of a vector of expressions. -/
def semL {α : Type} (S : Sem α) : List E → List α
  | [] => []
  | e :: es => sem S e :: semL S es
end

/-- The generators of a comprehension are stored one after the other; `_gIndex` holds where each
begins and, at its end, the number of entries (ast.cpp 583–638): positions that increase strictly
and end with the size of `_g`. -/
def GIndexOk (n : Nat) (x : List Nat) : Prop := x.Pairwise (· < ·) ∧ x.getLast? = some n

mutual
/-- Whether an identifier has a declaration is decided by `p` on its name, and the generators of
comprehensions are stored as they should be. After the type checker every identifier has a
declaration (`p` is always true). -/
def Wf (p : List Nat → Int → Bool) : E → Prop
  | .id _ d n i => d.isSome = p n i
  | .setV _ v => WfL p v
  | .arr _ _ es => WfL p es
  | .acc _ v x => Wf p v ∧ WfL p x
  | .fld _ v f => Wf p v ∧ Wf p f
  | .comp _ _ e g x => Wf p e ∧ WfL p g ∧ GIndexOk g.length x
  | .ite _ c e => WfL p c ∧ Wf p e
  | .bin _ _ l r => Wf p l ∧ Wf p r
  | .un _ _ e => Wf p e
  | .call _ _ _ a => WfL p a
  | .vd _ t i e => Wf p t ∧ Wf p i ∧ Wf p e
  | .lets _ d b => WfL p d ∧ Wf p b
  | .ti _ r d => WfL p r ∧ Wf p d
  | _ => True
/-- `Wf` for a vector of expressions. -/
def WfL (p : List Nat → Int → Bool) : List E → Prop
  | [] => True
  | e :: es => Wf p e ∧ WfL p es
end

/-! ## Reflexivity and symmetry -/

theorem hdEq_refl (h : Hd) : hdEq h h = true := by simp [hdEq]
theorem hdEq_comm (h k : Hd) : hdEq h k = hdEq k h := by
  unfold hdEq; rw [Bool.beq_comm (a := h.ty), Bool.beq_comm (a := h.h)]
theorem hdEq_ty {h k : Hd} (e : hdEq h k = true) : h.ty = k.ty := by
  simp [hdEq] at e; exact e.1
theorem hdEq_trans {h k l : Hd} (a : hdEq h k = true) (b : hdEq k l = true) : hdEq h l = true := by
  simp [hdEq] at *; exact ⟨a.1.trans b.1, a.2.trans b.2⟩

theorem rangesEqual_iff : ∀ s t, Ranges.equal s t = true ↔ s = t
  | [], [] => by simp [Ranges.equal]
  | [], _ :: _ => by simp [Ranges.equal]
  | _ :: _, [] => by simp [Ranges.equal]
  | a :: i, b :: j => by
    cases a; cases b
    simp [Ranges.equal, rangesEqual_iff i j]

theorem fltRangesEq_iff : ∀ s t, fltRangesEq s t = true ↔
    s.map (fun p => (p.1.val, p.2.val)) = t.map (fun p => (p.1.val, p.2.val))
  | [], [] => by simp [fltRangesEq]
  | [], _ :: _ => by simp [fltRangesEq]
  | _ :: _, [] => by simp [fltRangesEq]
  | a :: i, b :: j => by simp [fltRangesEq, fltRangesEq_iff i j]

theorem gIndexEq_iff : ∀ s t, gIndexEq s t = true ↔ s <+: t
  | [], _ => by simp [gIndexEq]
  | a :: i, b :: j => by simp [gIndexEq, gIndexEq_iff i j]
  | _ :: _, [] => by simp [gIndexEq]

theorem idEq_refl (flat : Nat → Option Nat) (d : Option Nat) (n : List Nat) (i : Int) :
    idEq flat d n i d n i = true := by
  cases d <;> simp [idEq]

mutual
theorem equal_refl (flat : Nat → Option Nat) : ∀ e, equal flat e e = true
  | .nul => by simp [equal]
  | .intU v => by simp [equal]
  | .fltU f => by simp [equal]
  | .int _ v => by simp [equal, hdEq_refl]
  | .flt _ f => by simp [equal, hdEq_refl]
  | .setI h s => by simp [equal, hdEq_refl, rangesEqual_iff]
  | .setF h s => by simp [equal, hdEq_refl, fltRangesEq_iff]
  | .setV h v => by simp [equal, hdEq_refl, equalL_refl flat v]
  | .bool _ b => by simp [equal, hdEq_refl]
  | .str _ s => by simp [equal, hdEq_refl]
  | .id _ d n i => by simp [equal, hdEq_refl, idEq_refl]
  | .anon _ a => by simp [equal]
  | .arr h d es => by simp [equal, hdEq_refl, equalL_refl flat es]
  | .acc _ v x => by simp [equal, hdEq_refl, equal_refl flat v, equalL_refl flat x]
  | .fld _ v f => by simp [equal, hdEq_refl, equal_refl flat v, equal_refl flat f]
  | .comp _ s e g x => by
    simp [equal, hdEq_refl, equal_refl flat e, equalL_refl flat g, gIndexEq_iff]
  | .ite _ c e => by simp [equal, hdEq_refl, equal_refl flat e, equalL_refl flat c]
  | .bin _ o l r => by simp [equal, hdEq_refl, equal_refl flat l, equal_refl flat r]
  | .un _ o e => by simp [equal, hdEq_refl, equal_refl flat e]
  | .call _ n d a => by simp [equal, hdEq_refl, equalL_refl flat a]
  | .vd _ t i e => by
    simp [equal, hdEq_refl, equal_refl flat t, equal_refl flat i, equal_refl flat e]
  | .lets _ d b => by simp [equal, hdEq_refl, equal_refl flat b, equalL_refl flat d]
  | .ti h r d => by simp [equal, hdEq_refl, equal_refl flat d, equalL_refl flat r]
  | .tiid _ a _ => by simp [equal]
theorem equalL_refl (flat : Nat → Option Nat) : ∀ es, equalL flat es es = true
  | [] => by simp [equalL]
  | e :: es => by simp [equalL, equal_refl flat e, equalL_refl flat es]
end

theorem gIndex_eq {n : Nat} {x y : List Nat} (hx : GIndexOk n x) (hy : GIndexOk n y)
    (h : gIndexEq x y = true) : x = y := by
  rw [gIndexEq_iff] at h
  obtain ⟨t, rfl⟩ := h
  cases t with
  | nil => simp
  | cons b t =>
    exfalso
    obtain ⟨hp, hl⟩ := hy
    rw [List.pairwise_append] at hp
    have hn : n ∈ x := List.mem_of_getLast? hx.2
    have : n ∈ b :: t := by
      rw [List.getLast?_append] at hl
      cases h : (b :: t).getLast? with
      | none => simp at h
      | some z => rw [h] at hl; simp at hl; exact hl ▸ List.mem_of_getLast? h
    have := hp.2.2 n hn n this
    omega

theorem idEq_symm {flat : Nat → Option Nat} {d0 n0 i0 d1 n1 i1}
    (h : idEq flat d0 n0 i0 d1 n1 i1 = true) : idEq flat d1 n1 i1 d0 n0 i0 = true := by
  cases d0 <;> cases d1 <;> simp [idEq] at h ⊢ <;> try exact ⟨h.1.symm, h.2.symm⟩
  rcases h with h | h
  · exact Or.inl h.symm
  · exact Or.inr ⟨h.2 ▸ h.1, h.2.symm⟩

theorem idEq_trans {p : List Nat → Int → Bool} {flat : Nat → Option Nat} {d0 n0 i0 d1 n1 i1 d2 n2 i2}
    (w0 : d0.isSome = p n0 i0) (w1 : d1.isSome = p n1 i1) (w2 : d2.isSome = p n2 i2)
    (h : idEq flat d0 n0 i0 d1 n1 i1 = true) (h' : idEq flat d1 n1 i1 d2 n2 i2 = true) :
    idEq flat d0 n0 i0 d2 n2 i2 = true := by
  cases d0 <;> cases d1 <;> cases d2 <;> simp [idEq] at h h' w0 w1 w2 ⊢
  · simp_all
  · simp_all
  · simp_all
  · simp_all
  · simp_all
  · simp_all
  · simp_all
  · rcases h with rfl | h <;> rcases h' with rfl | h'
    · exact Or.inl rfl
    · exact Or.inr h'
    · exact Or.inr h
    · exact Or.inr ⟨h.1, h.2.trans h'.2⟩

theorem equalL_length {flat : Nat → Option Nat} : ∀ {a b}, equalL flat a b = true → a.length = b.length
  | [], [], _ => rfl
  | [], _ :: _, h => by simp [equalL] at h
  | _ :: _, [], h => by simp [equalL] at h
  | a :: as, b :: bs, h => by
    simp [equalL] at h
    simp [equalL_length h.2]

mutual
theorem equal_symm {p : List Nat → Int → Bool} {flat : Nat → Option Nat} :
    ∀ {a b : E}, Wf p a → Wf p b → equal flat a b = true → equal flat b a = true
  | .nul, b, _, _, h => by cases b <;> simp [equal] at h ⊢
  | .intU v, b, _, _, h => by cases b <;> simp [equal] at h ⊢; exact h.symm
  | .fltU f, b, _, _, h => by cases b <;> simp [equal] at h ⊢; exact h.symm
  | .int _ v, b, _, _, h => by
    cases b <;> simp [equal] at h ⊢; exact ⟨hdEq_comm _ _ ▸ h.1, h.2.symm⟩
  | .flt _ f, b, _, _, h => by
    cases b <;> simp [equal] at h ⊢; exact ⟨hdEq_comm _ _ ▸ h.1, h.2.symm⟩
  | .setI _ s, b, _, _, h => by
    cases b <;> simp [equal, rangesEqual_iff] at h ⊢; exact ⟨hdEq_comm _ _ ▸ h.1, h.2.symm⟩
  | .setF _ s, b, _, _, h => by
    cases b <;> simp [equal, fltRangesEq_iff] at h ⊢; exact ⟨hdEq_comm _ _ ▸ h.1, h.2.symm⟩
  | .setV _ v, b, wa, wb, h => by
    cases b <;> simp [equal] at h ⊢; exact ⟨hdEq_comm _ _ ▸ h.1, equalL_symm wa wb h.2⟩
  | .bool _ v, b, _, _, h => by
    cases b <;> simp [equal] at h ⊢; exact ⟨hdEq_comm _ _ ▸ h.1, h.2.symm⟩
  | .str _ v, b, _, _, h => by
    cases b <;> simp [equal] at h ⊢; exact ⟨hdEq_comm _ _ ▸ h.1, h.2.symm⟩
  | .id _ d n i, b, _, _, h => by
    cases b <;> simp [equal] at h ⊢; exact ⟨hdEq_comm _ _ ▸ h.1, idEq_symm h.2⟩
  | .anon _ a, b, _, _, h => by
    cases b <;> simp [equal] at h ⊢; exact ⟨h.1.symm, h.2.symm⟩
  | .arr _ d es, b, wa, wb, h => by
    cases b <;> simp [equal] at h ⊢
    exact ⟨hdEq_comm _ _ ▸ h.1, h.2.1.symm, equalL_symm wa wb h.2.2⟩
  | .acc _ v x, b, wa, wb, h => by
    cases b <;> simp [equal] at h ⊢
    exact ⟨hdEq_comm _ _ ▸ h.1, equal_symm wa.1 wb.1 h.2.1, equalL_symm wa.2 wb.2 h.2.2⟩
  | .fld _ v f, b, wa, wb, h => by
    cases b <;> simp [equal] at h ⊢
    exact ⟨hdEq_comm _ _ ▸ h.1, equal_symm wa.2 wb.2 h.2.1, equal_symm wa.1 wb.1 h.2.2⟩
  | .comp _ s e g x, b, wa, wb, h => by
    cases b <;> simp [equal] at h ⊢
    obtain ⟨wa1, wa2, wa3⟩ := wa
    obtain ⟨wb1, wb2, wb3⟩ := wb
    have hl := equalL_length h.2.2.2.1
    rw [hl] at wa3
    have hx := gIndex_eq wa3 wb3 h.2.2.2.2
    subst hx
    exact ⟨hdEq_comm _ _ ▸ h.1, h.2.1.symm, equal_symm wa1 wb1 h.2.2.1,
      equalL_symm wa2 wb2 h.2.2.2.1, h.2.2.2.2⟩
  | .ite _ c e, b, wa, wb, h => by
    cases b <;> simp [equal] at h ⊢
    exact ⟨hdEq_comm _ _ ▸ h.1, equalL_symm wa.1 wb.1 h.2.1, equal_symm wa.2 wb.2 h.2.2⟩
  | .bin _ o l r, b, wa, wb, h => by
    cases b <;> simp [equal] at h ⊢
    exact ⟨hdEq_comm _ _ ▸ h.1, h.2.1.symm, equal_symm wa.1 wb.1 h.2.2.1,
      equal_symm wa.2 wb.2 h.2.2.2⟩
  | .un _ o e, b, wa, wb, h => by
    cases b <;> simp [equal] at h ⊢
    exact ⟨hdEq_comm _ _ ▸ h.1, h.2.1.symm, equal_symm wa wb h.2.2⟩
  | .call _ n d a, b, wa, wb, h => by
    cases b <;> simp [equal] at h ⊢
    exact ⟨hdEq_comm _ _ ▸ h.1, h.2.1.symm, h.2.2.1.symm, equalL_symm wa wb h.2.2.2⟩
  | .vd _ t i e, b, wa, wb, h => by
    cases b <;> simp [equal] at h ⊢
    exact ⟨hdEq_comm _ _ ▸ h.1, equal_symm wa.1 wb.1 h.2.1, equal_symm wa.2.1 wb.2.1 h.2.2.1,
      equal_symm wa.2.2 wb.2.2 h.2.2.2⟩
  | .lets _ d e, b, wa, wb, h => by
    cases b <;> simp [equal] at h ⊢
    exact ⟨hdEq_comm _ _ ▸ h.1, equal_symm wa.2 wb.2 h.2.1, equalL_symm wa.1 wb.1 h.2.2⟩
  | .ti _ r d, b, wa, wb, h => by
    cases b <;> simp [equal] at h ⊢
    exact ⟨hdEq_comm _ _ ▸ h.1, equalL_symm wa.1 wb.1 h.2.1, equal_symm wa.2 wb.2 h.2.2⟩
  | .tiid _ a _, b, _, _, h => by
    cases b <;> simp [equal] at h ⊢; exact ⟨h.1.symm, h.2.symm⟩
theorem equalL_symm {p : List Nat → Int → Bool} {flat : Nat → Option Nat} :
    ∀ {a b : List E}, WfL p a → WfL p b → equalL flat a b = true → equalL flat b a = true
  | [], b, _, _, h => by cases b <;> simp [equalL] at h ⊢
  | a :: as, b, wa, wb, h => by
    cases b <;> simp [equalL] at h ⊢
    exact ⟨equal_symm wa.1 wb.1 h.1, equalL_symm wa.2 wb.2 h.2⟩
end

mutual
theorem equal_trans {p : List Nat → Int → Bool} {flat : Nat → Option Nat} :
    ∀ {a b c : E}, Wf p a → Wf p b → Wf p c → equal flat a b = true → equal flat b c = true →
      equal flat a c = true
  | .nul, b, c, _, _, _, h, g => by
    cases b <;> simp [equal] at h; cases c <;> simp [equal] at g ⊢
  | .intU v, b, c, _, _, _, h, g => by
    cases b <;> simp [equal] at h; cases c <;> simp [equal] at g ⊢; exact h.trans g
  | .fltU f, b, c, _, _, _, h, g => by
    cases b <;> simp [equal] at h; cases c <;> simp [equal] at g ⊢; exact h.trans g
  | .int _ v, b, c, _, _, _, h, g => by
    cases b <;> simp [equal] at h; cases c <;> simp [equal] at g ⊢
    exact ⟨hdEq_trans h.1 g.1, h.2.trans g.2⟩
  | .flt _ f, b, c, _, _, _, h, g => by
    cases b <;> simp [equal] at h; cases c <;> simp [equal] at g ⊢
    exact ⟨hdEq_trans h.1 g.1, h.2.trans g.2⟩
  | .setI _ s, b, c, _, _, _, h, g => by
    cases b <;> simp [equal, rangesEqual_iff] at h
    cases c <;> simp [equal, rangesEqual_iff] at g ⊢
    exact ⟨hdEq_trans h.1 g.1, h.2.trans g.2⟩
  | .setF _ s, b, c, _, _, _, h, g => by
    cases b <;> simp [equal, fltRangesEq_iff] at h
    cases c <;> simp [equal, fltRangesEq_iff] at g ⊢
    exact ⟨hdEq_trans h.1 g.1, h.2.trans g.2⟩
  | .setV _ v, b, c, wa, wb, wc, h, g => by
    cases b <;> simp [equal] at h; cases c <;> simp [equal] at g ⊢
    exact ⟨hdEq_trans h.1 g.1, equalL_trans wa wb wc h.2 g.2⟩
  | .bool _ v, b, c, _, _, _, h, g => by
    cases b <;> simp [equal] at h; cases c <;> simp [equal] at g ⊢
    exact ⟨hdEq_trans h.1 g.1, h.2.trans g.2⟩
  | .str _ v, b, c, _, _, _, h, g => by
    cases b <;> simp [equal] at h; cases c <;> simp [equal] at g ⊢
    exact ⟨hdEq_trans h.1 g.1, h.2.trans g.2⟩
  | .id _ d n i, b, c, wa, wb, wc, h, g => by
    cases b <;> simp [equal] at h; cases c <;> simp [equal] at g ⊢
    exact ⟨hdEq_trans h.1 g.1, idEq_trans wa wb wc h.2 g.2⟩
  | .anon _ a, b, c, _, _, _, h, g => by
    cases b <;> simp [equal] at h; cases c <;> simp [equal] at g ⊢
    exact ⟨h.1.trans g.1, h.2.trans g.2⟩
  | .arr _ d es, b, c, wa, wb, wc, h, g => by
    cases b <;> simp [equal] at h; cases c <;> simp [equal] at g ⊢
    exact ⟨hdEq_trans h.1 g.1, h.2.1.trans g.2.1, equalL_trans wa wb wc h.2.2 g.2.2⟩
  | .acc _ v x, b, c, wa, wb, wc, h, g => by
    cases b <;> simp [equal] at h; cases c <;> simp [equal] at g ⊢
    exact ⟨hdEq_trans h.1 g.1, equal_trans wa.1 wb.1 wc.1 h.2.1 g.2.1,
      equalL_trans wa.2 wb.2 wc.2 h.2.2 g.2.2⟩
  | .fld _ v f, b, c, wa, wb, wc, h, g => by
    cases b <;> simp [equal] at h; cases c <;> simp [equal] at g ⊢
    exact ⟨hdEq_trans h.1 g.1, equal_trans wa.2 wb.2 wc.2 h.2.1 g.2.1,
      equal_trans wa.1 wb.1 wc.1 h.2.2 g.2.2⟩
  | .comp _ s e gs x, b, c, wa, wb, wc, h, g => by
    cases b <;> simp [equal] at h; cases c <;> simp [equal] at g ⊢
    refine ⟨hdEq_trans h.1 g.1, h.2.1.trans g.2.1, equal_trans wa.1 wb.1 wc.1 h.2.2.1 g.2.2.1,
      equalL_trans wa.2.1 wb.2.1 wc.2.1 h.2.2.2.1 g.2.2.2.1, ?_⟩
    have h1 := h.2.2.2.2
    have h2 := g.2.2.2.2
    rw [gIndexEq_iff] at *
    exact h1.trans h2
  | .ite _ c e, b, c', wa, wb, wc, h, g => by
    cases b <;> simp [equal] at h; cases c' <;> simp [equal] at g ⊢
    exact ⟨hdEq_trans h.1 g.1, equalL_trans wa.1 wb.1 wc.1 h.2.1 g.2.1,
      equal_trans wa.2 wb.2 wc.2 h.2.2 g.2.2⟩
  | .bin _ o l r, b, c, wa, wb, wc, h, g => by
    cases b <;> simp [equal] at h; cases c <;> simp [equal] at g ⊢
    exact ⟨hdEq_trans h.1 g.1, h.2.1.trans g.2.1, equal_trans wa.1 wb.1 wc.1 h.2.2.1 g.2.2.1,
      equal_trans wa.2 wb.2 wc.2 h.2.2.2 g.2.2.2⟩
  | .un _ o e, b, c, wa, wb, wc, h, g => by
    cases b <;> simp [equal] at h; cases c <;> simp [equal] at g ⊢
    simp only [Wf] at wa wb wc
    exact ⟨hdEq_trans h.1 g.1, h.2.1.trans g.2.1, equal_trans wa wb wc h.2.2 g.2.2⟩
  | .call _ n d a, b, c, wa, wb, wc, h, g => by
    cases b <;> simp [equal] at h; cases c <;> simp [equal] at g ⊢
    exact ⟨hdEq_trans h.1 g.1, h.2.1.trans g.2.1, h.2.2.1.trans g.2.2.1,
      equalL_trans wa wb wc h.2.2.2 g.2.2.2⟩
  | .vd _ t i e, b, c, wa, wb, wc, h, g => by
    cases b <;> simp [equal] at h; cases c <;> simp [equal] at g ⊢
    exact ⟨hdEq_trans h.1 g.1, equal_trans wa.1 wb.1 wc.1 h.2.1 g.2.1,
      equal_trans wa.2.1 wb.2.1 wc.2.1 h.2.2.1 g.2.2.1,
      equal_trans wa.2.2 wb.2.2 wc.2.2 h.2.2.2 g.2.2.2⟩
  | .lets _ d e, b, c, wa, wb, wc, h, g => by
    cases b <;> simp [equal] at h; cases c <;> simp [equal] at g ⊢
    exact ⟨hdEq_trans h.1 g.1, equal_trans wa.2 wb.2 wc.2 h.2.1 g.2.1,
      equalL_trans wa.1 wb.1 wc.1 h.2.2 g.2.2⟩
  | .ti _ r d, b, c, wa, wb, wc, h, g => by
    cases b <;> simp [equal] at h; cases c <;> simp [equal] at g ⊢
    exact ⟨hdEq_trans h.1 g.1, equalL_trans wa.1 wb.1 wc.1 h.2.1 g.2.1,
      equal_trans wa.2 wb.2 wc.2 h.2.2 g.2.2⟩
  | .tiid _ a _, b, c, _, _, _, h, g => by
    cases b <;> simp [equal] at h; cases c <;> simp [equal] at g ⊢
    exact ⟨h.1.trans g.1, h.2.trans g.2⟩
theorem equalL_trans {p : List Nat → Int → Bool} {flat : Nat → Option Nat} :
    ∀ {a b c : List E}, WfL p a → WfL p b → WfL p c → equalL flat a b = true →
      equalL flat b c = true → equalL flat a c = true
  | [], b, c, _, _, _, h, g => by
    cases b <;> simp [equalL] at h; cases c <;> simp [equalL] at g ⊢
  | a :: as, b, c, wa, wb, wc, h, g => by
    cases b <;> simp [equalL] at h; cases c <;> simp [equalL] at g ⊢
    exact ⟨equal_trans wa.1 wb.1 wc.1 h.1 g.1, equalL_trans wa.2 wb.2 wc.2 h.2 g.2⟩
end

/-! ## Equal expressions mean the same -/

theorem idEq_sem {α : Type} {S : Sem α} {p : List Nat → Int → Bool} {flat : Nat → Option Nat}
    (hf : ∀ d f, flat d = some f → S.var d = S.var f) {h k : Hd} {d0 n0 i0 d1 n1 i1}
    (w0 : d0.isSome = p n0 i0) (w1 : d1.isSome = p n1 i1)
    (e : idEq flat d0 n0 i0 d1 n1 i1 = true) :
    sem S (.id h d0 n0 i0) = sem S (.id k d1 n1 i1) := by
  cases d0 <;> cases d1 <;> simp [idEq, sem] at e w0 w1 ⊢
  · rw [e.1, e.2]
  · simp_all
  · simp_all
  · rename_i d0 d1
    rcases e with rfl | ⟨e1, e2⟩
    · rfl
    · rw [Option.isSome_iff_exists] at e1
      obtain ⟨f, hf1⟩ := e1
      exact (hf _ _ hf1).trans (hf _ _ (e2 ▸ hf1)).symm

mutual
theorem equal_sem {α : Type} {S : Sem α} {p : List Nat → Int → Bool} {flat : Nat → Option Nat}
    (hf : ∀ d f, flat d = some f → S.var d = S.var f) :
    ∀ {a b : E}, Wf p a → Wf p b → equal flat a b = true → sem S a = sem S b
  | .nul, b, _, _, h => by cases b <;> simp [equal] at h ⊢
  | .intU v, b, _, _, h => by cases b <;> simp [equal] at h ⊢; simp [sem, h]
  | .fltU f, b, _, _, h => by cases b <;> simp [equal] at h ⊢; simp [sem, h]
  | .int _ v, b, _, _, h => by cases b <;> simp [equal] at h ⊢; simp [sem, h]
  | .flt _ f, b, _, _, h => by cases b <;> simp [equal] at h ⊢; simp [sem, h]
  | .setI _ s, b, _, _, h => by
    cases b <;> simp [equal, rangesEqual_iff] at h ⊢; simp [sem, h.2, hdEq_ty h.1]
  | .setF _ s, b, _, _, h => by
    cases b <;> simp [equal, fltRangesEq_iff] at h ⊢; simp [sem, h.2, hdEq_ty h.1]
  | .setV _ v, b, wa, wb, h => by
    cases b <;> simp [equal] at h ⊢
    simp [sem, hdEq_ty h.1, equalL_sem hf wa wb h.2]
  | .bool _ v, b, _, _, h => by cases b <;> simp [equal] at h ⊢; simp [sem, h]
  | .str _ v, b, _, _, h => by cases b <;> simp [equal] at h ⊢; simp [sem, h]
  | .id _ d n i, b, wa, wb, h => by
    cases b <;> simp [equal] at h
    exact idEq_sem hf wa wb h.2
  | .anon _ a, b, _, _, h => by cases b <;> simp [equal] at h ⊢; simp [sem, h]
  | .arr _ d es, b, wa, wb, h => by
    cases b <;> simp [equal] at h ⊢
    simp [sem, hdEq_ty h.1, h.2.1, equalL_sem hf wa wb h.2.2]
  | .acc _ v x, b, wa, wb, h => by
    cases b <;> simp [equal] at h ⊢
    simp [sem, equal_sem hf wa.1 wb.1 h.2.1, equalL_sem hf wa.2 wb.2 h.2.2]
  | .fld _ v f, b, wa, wb, h => by
    cases b <;> simp [equal] at h ⊢
    simp [sem, equal_sem hf wa.1 wb.1 h.2.2, equal_sem hf wa.2 wb.2 h.2.1]
  | .comp _ s e g x, b, wa, wb, h => by
    cases b <;> simp [equal] at h ⊢
    obtain ⟨wa1, wa2, wa3⟩ := wa
    obtain ⟨wb1, wb2, wb3⟩ := wb
    have hl := equalL_length h.2.2.2.1
    rw [hl] at wa3
    have hx := gIndex_eq wa3 wb3 h.2.2.2.2
    simp [sem, h.2.1, hx, equal_sem hf wa1 wb1 h.2.2.1, equalL_sem hf wa2 wb2 h.2.2.2.1]
  | .ite _ c e, b, wa, wb, h => by
    cases b <;> simp [equal] at h ⊢
    simp [sem, equalL_sem hf wa.1 wb.1 h.2.1, equal_sem hf wa.2 wb.2 h.2.2]
  | .bin _ o l r, b, wa, wb, h => by
    cases b <;> simp [equal] at h ⊢
    simp [sem, h.2.1, equal_sem hf wa.1 wb.1 h.2.2.1, equal_sem hf wa.2 wb.2 h.2.2.2]
  | .un _ o e, b, wa, wb, h => by
    cases b <;> simp [equal] at h ⊢
    simp only [Wf] at wa wb
    simp [sem, h.2.1, equal_sem hf wa wb h.2.2]
  | .call _ n d a, b, wa, wb, h => by
    cases b <;> simp [equal] at h ⊢
    simp [sem, h.2.1, h.2.2.1, equalL_sem hf wa wb h.2.2.2]
  | .vd _ t i e, b, wa, wb, h => by
    cases b <;> simp [equal] at h ⊢
    simp [sem, equal_sem hf wa.1 wb.1 h.2.1, equal_sem hf wa.2.1 wb.2.1 h.2.2.1,
      equal_sem hf wa.2.2 wb.2.2 h.2.2.2]
  | .lets _ d e, b, wa, wb, h => by
    cases b <;> simp [equal] at h ⊢
    simp [sem, equal_sem hf wa.2 wb.2 h.2.1, equalL_sem hf wa.1 wb.1 h.2.2]
  | .ti _ r d, b, wa, wb, h => by
    cases b <;> simp [equal] at h ⊢
    simp [sem, hdEq_ty h.1, equalL_sem hf wa.1 wb.1 h.2.1, equal_sem hf wa.2 wb.2 h.2.2]
  | .tiid _ a _, b, _, _, h => by cases b <;> simp [equal] at h ⊢; simp [sem, h]
theorem equalL_sem {α : Type} {S : Sem α} {p : List Nat → Int → Bool} {flat : Nat → Option Nat}
    (hf : ∀ d f, flat d = some f → S.var d = S.var f) :
    ∀ {a b : List E}, WfL p a → WfL p b → equalL flat a b = true → semL S a = semL S b
  | [], b, _, _, h => by cases b <;> simp [equalL] at h ⊢
  | a :: as, b, wa, wb, h => by
    cases b <;> simp [equalL] at h ⊢
    simp [semL, equal_sem hf wa.1 wb.1 h.1, equalL_sem hf wa.2 wb.2 h.2]
end

/-- **C66, identical expressions.** An expression is equal to itself, so that copies with the same
content are recognised and the test for identical pointers changes no answer. -/
theorem _root_.MZ.C66_refl (flat : Nat → Option Nat) (e : E) : equal flat e e = true :=
  equal_refl flat e

/-- **C66, equality is an equivalence relation** on expressions whose identifiers have been
resolved consistently (`p` is constantly true after the type checker). -/
theorem _root_.MZ.C66_equivalence_partial (p : List Nat → Int → Bool) (flat : Nat → Option Nat) :
    (∀ a b, Wf p a → Wf p b → (equal flat a b = true ↔ equal flat b a = true)) ∧
    (∀ a b c, Wf p a → Wf p b → Wf p c → equal flat a b = true → equal flat b c = true →
      equal flat a c = true) :=
  ⟨fun _ _ wa wb => ⟨equal_symm wa wb, equal_symm wb wa⟩, fun _ _ _ => equal_trans⟩

/-- **C66, without that restriction equality is not transitive**: an identifier without a
declaration is equal to every identifier of the same name, also to identifiers of two different
declarations. -/
theorem _root_.MZ.C66_equivalence_fails : ∃ a b c : E,
    equal (fun _ => none) a b = true ∧ equal (fun _ => none) b c = true ∧
      equal (fun _ => none) a c = false :=
  ⟨.id ⟨0, 7⟩ (some 1) [120] (-1), .id ⟨0, 7⟩ none [120] (-1), .id ⟨0, 7⟩ (some 2) [120] (-1),
    by decide, by decide, by decide⟩

/-- **C66, equal expressions mean the same**, whatever the meaning of the nodes, as long as it is
composed from the meanings of the parts and a declaration has the value of the declaration in the
flat model it stands for. No assumption is made on the stored hash values. -/
theorem _root_.MZ.C66_equal_sound {α : Type} (S : Sem α) (p : List Nat → Int → Bool)
    (flat : Nat → Option Nat) (hf : ∀ d f, flat d = some f → S.var d = S.var f) (a b : E)
    (wa : Wf p a) (wb : Wf p b) (h : equal flat a b = true) : sem S a = sem S b :=
  equal_sem hf wa wb h

/-- **C66, comparing comprehensions reads no index beyond the end**: if the generators of two
comprehensions are equal, every position of `_gIndex` of the first that is read after an equal
prefix exists in the second. -/
theorem _root_.MZ.C66_gindex (n : Nat) (x y : List Nat) (hx : GIndexOk n x) (hy : GIndexOk n y)
    (i : Nat) (hi : i < x.length) (hp : ∀ j, j < i → x[j]? = y[j]?) : i < y.length := by
  rcases Nat.lt_or_ge i y.length with h | h
  · exact h
  · exfalso
    -- `y` is a proper prefix of `x`
    have hyx : y <+: x := by
      rw [List.prefix_iff_eq_take]
      apply List.ext_getElem?
      intro j
      rw [List.getElem?_take]
      split
      · rw [hp j (by omega)]
      · rw [List.getElem?_eq_none (by omega)]
    obtain ⟨t, rfl⟩ := hyx
    have hn : n ∈ y := List.mem_of_getLast? hy.2
    cases t with
    | nil => simp at hi; omega
    | cons b t =>
      obtain ⟨hq, hl⟩ := hx
      rw [List.pairwise_append] at hq
      have : n ∈ b :: t := by
        rw [List.getLast?_append] at hl
        cases h : (b :: t).getLast? with
        | none => simp at h
        | some z => rw [h] at hl; simp at hl; exact hl ▸ List.mem_of_getLast? h
      have := hq.2.2 n hn n this
      omega

/-- **C66, anonymous variables are all different**: two different nodes `_` are never equal. -/
theorem _root_.MZ.C66_anon (flat : Nat → Option Nat) (h k : Hd) (a b : Nat) (hab : a ≠ b) :
    equal flat (.anon h a) (.anon k b) = false := by simp [equal, hab]

example : Wf (fun _ _ => true) (.call ⟨1, 2⟩ [102] (some 4)
    [.id ⟨0, 7⟩ (some 1) [120] (-1), .comp ⟨1, 1⟩ false (.id ⟨0, 8⟩ (some 2) [121] (-1))
      [.setI ⟨1, 3⟩ [⟨.fin 1, .fin 3⟩], .nul, .nul] [0, 3]]) := by
  simp [Wf, WfL, GIndexOk]

example : equal (fun d => if d = 1 ∨ d = 2 then some 5 else none)
    (.call ⟨1, 2⟩ [102] (some 4) [.id ⟨0, 7⟩ (some 1) [120] (-1), .intU 3])
    (.call ⟨1, 2⟩ [102] (some 4) [.id ⟨0, 7⟩ (some 2) [121] (-1), .intU 3]) = true := by decide
example : equal (fun _ => none)
    (.call ⟨1, 2⟩ [102] (some 4) [.id ⟨0, 7⟩ (some 1) [120] (-1), .intU 3])
    (.call ⟨1, 2⟩ [102] (some 4) [.id ⟨0, 7⟩ (some 1) [120] (-1), .intU 4]) = false := by decide
example : GIndexOk 6 [0, 3, 6] := by simp [GIndexOk]

end ExprEq
end MZ
