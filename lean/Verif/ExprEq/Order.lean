import Verif.ExprEq.Props
import Mathlib.Logic.Equiv.List
import Mathlib.Data.Int.Basic
/-!
# The order of expressions

`Expression::compare` is documented as a "deterministic, content-based total order over
expressions" with "`compare(a,b)==0` whenever `equal(a,b)`" (ast.hh 564–566). It orders
expressions like their encodings as sequences of integers are ordered lexicographically, which
makes it a total preorder, provided that set literals of only one kind occur.
-/
namespace MZ
namespace ExprEq

/-! ## Lexicographic order on sequences of integers -/

/-- Lexicographic comparison. -/
def lexc : List Int → List Int → Int
  | [], [] => 0
  | [], _ :: _ => -1
  | _ :: _, [] => 1
  | a :: as, b :: bs => thenCmp (cmpInt a b) (lexc as bs)

theorem cmpInt_self (a : Int) : cmpInt a a = 0 := by simp [cmpInt, sgn]
theorem cmpInt_eq_zero {a b : Int} : cmpInt a b = 0 ↔ a = b := by
  simp only [cmpInt, sgn, decide_eq_true_eq]
  by_cases h : a < b
  · rw [if_pos h]; constructor <;> intro _ <;> omega
  · rw [if_neg h]; by_cases h2 : a = b <;> simp [h2]
theorem cmpInt_neg (a b : Int) : cmpInt a b = - cmpInt b a := by
  simp only [cmpInt, sgn, decide_eq_true_eq]; repeat' split
  all_goals first | omega | rfl
theorem cmpInt_lt {a b : Int} (h : a < b) : cmpInt a b = -1 := by simp [cmpInt, sgn, h]
theorem cmpInt_gt {a b : Int} (h : b < a) : cmpInt a b = 1 := by
  simp only [cmpInt, sgn, decide_eq_true_eq]; rw [if_neg (by omega), if_neg (by omega)]
theorem cmpInt_range (a b : Int) : cmpInt a b = -1 ∧ a < b ∨ cmpInt a b = 0 ∧ a = b ∨
    cmpInt a b = 1 ∧ b < a := by
  rcases Int.lt_trichotomy a b with h | h | h
  · exact Or.inl ⟨cmpInt_lt h, h⟩
  · exact Or.inr (Or.inl ⟨h ▸ cmpInt_self a, h⟩)
  · exact Or.inr (Or.inr ⟨cmpInt_gt h, h⟩)

theorem zero_then (d : Int) : thenCmp 0 d = d := by simp [thenCmp]
theorem then_zero (d : Int) : thenCmp d 0 = d := by unfold thenCmp; split <;> simp_all
theorem then_assoc (a b c : Int) : thenCmp (thenCmp a b) c = thenCmp a (thenCmp b c) := by
  unfold thenCmp; by_cases h : a = 0 <;> simp [h]
theorem then_congr {a b c : Int} (h : a = 0 → b = c) : thenCmp a b = thenCmp a c := by
  unfold thenCmp; split
  · rfl
  · rename_i h'; exact h (by simpa using h')
theorem then_neg (a b : Int) : thenCmp (-a) (-b) = - thenCmp a b := by
  unfold thenCmp; by_cases h : a = 0 <;> simp [h]

theorem lexc_neg : ∀ a b, lexc a b = - lexc b a
  | [], [] => rfl
  | [], _ :: _ => rfl
  | _ :: _, [] => rfl
  | a :: as, b :: bs => by
    simp only [lexc]; rw [cmpInt_neg a b, lexc_neg as bs, then_neg]

theorem lexc_range : ∀ a b, lexc a b = -1 ∨ lexc a b = 0 ∨ lexc a b = 1
  | [], [] => by simp [lexc]
  | [], _ :: _ => by simp [lexc]
  | _ :: _, [] => by simp [lexc]
  | a :: as, b :: bs => by
    simp only [lexc]
    rcases cmpInt_range a b with ⟨h, _⟩ | ⟨h, _⟩ | ⟨h, _⟩
    · simp [thenCmp, h]
    · rw [h, zero_then]; exact lexc_range as bs
    · simp [thenCmp, h]

theorem lexc_trans : ∀ {a b c}, lexc a b ≤ 0 → lexc b c ≤ 0 → lexc a c ≤ 0
  | [], [], _, _, h => h
  | [], _ :: _, [], _, h => by simp [lexc] at h
  | [], _ :: _, _ :: _, _, _ => by simp [lexc]
  | _ :: _, [], _, h, _ => by simp [lexc] at h
  | _ :: _, _ :: _, [], _, h => by simp [lexc] at h
  | a :: as, b :: bs, c :: cs, h, g => by
    simp only [lexc] at *
    rcases cmpInt_range a b with ⟨h1, h2⟩ | ⟨h1, h2⟩ | ⟨h1, h2⟩
    · rcases cmpInt_range b c with ⟨g1, g2⟩ | ⟨g1, g2⟩ | ⟨g1, g2⟩
      · rw [cmpInt_lt (show a < c by omega)]; simp [thenCmp]
      · rw [cmpInt_lt (show a < c by omega)]; simp [thenCmp]
      · simp [thenCmp, g1] at g
    · subst h2
      rw [h1, zero_then] at h
      rcases cmpInt_range a c with ⟨g1, g2⟩ | ⟨g1, g2⟩ | ⟨g1, g2⟩
      · rw [g1]; simp [thenCmp]
      · rw [g1, zero_then] at g; rw [g1, zero_then]; exact lexc_trans h g
      · simp [thenCmp, g1] at g
    · simp [thenCmp, h1] at h

/-! ## Encodings -/

/-- An extended integer. -/
def keyE : Ext → List Int
  | .negInf => [-1, 0]
  | .fin n => [0, n]
  | .posInf => [1, 0]

/-- A string: its bytes, then an end mark smaller than every byte. -/
def keyS : List Nat → List Int
  | [] => [0]
  | c :: cs => (c + 1 : Int) :: keyS cs

/-- The ranges of a set of integers. -/
def keyR : List Range → List Int
  | [] => []
  | r :: rs => keyE r.lo ++ (keyE r.hi ++ keyR rs)
/-- The ranges of a set of floats. -/
def keyF : List (Flt × Flt) → List Int
  | [] => []
  | r :: rs => keyE r.1.val ++ (keyE r.2.val ++ keyF rs)
/-- Natural numbers. -/
def keyN : List Nat → List Int
  | [] => []
  | n :: ns => (n : Int) :: keyN ns

mutual
/-- The encoding of an expression. -/
def key : E → List Int
  | .nul => [-1]
  | .intU v => 0 :: keyE (.fin v)
  | .fltU f => 1 :: keyE f.val
  | .int _ v => 0 :: keyE v
  | .flt _ f => 1 :: keyE f.val
  | .setI _ s => 2 :: (s.length : Int) :: keyR s
  | .setF _ s => 2 :: (s.length : Int) :: keyF s
  | .setV _ v => 2 :: (v.length : Int) :: keyL v
  | .bool _ b => [3, (b.toNat : Int)]
  | .str _ s => 4 :: keyS s
  | .id _ _ n i => 5 :: i :: (if i = -1 then keyS n else [])
  | .anon _ _ => [6]
  | .arr _ _ es => 7 :: (es.length : Int) :: keyL es
  | .acc _ v x => 8 :: (key v ++ (x.length : Int) :: keyL x)
  | .fld _ v f => 9 :: (key f ++ key v)
  | .comp _ s e g x =>
    10 :: (s.toNat : Int) :: (key e ++ (g.length : Int) :: (keyL g ++ (x.length : Int) :: keyN x))
  | .ite _ c e => 11 :: (c.length : Int) :: (keyL c ++ key e)
  | .bin _ o l r => 12 :: (o : Int) :: (key l ++ key r)
  | .un _ o e => 13 :: (o : Int) :: key e
  | .call _ n _ a => 14 :: (keyS n ++ (a.length : Int) :: keyL a)
  | .vd _ t i e => 15 :: (key i ++ (key t ++ key e))
  | .lets _ d b => 16 :: (key b ++ (d.length : Int) :: keyL d)
  | .ti _ r d => 17 :: (r.length : Int) :: (keyL r ++ key d)
  | .tiid _ _ n => 18 :: keyS n
/-- The encodings of a vector of expressions. -/
def keyL : List E → List Int
  | [] => []
  | e :: es => key e ++ keyL es
end

mutual
/-- All set literals in an expression are of one kind: 0 for sets of integers given by ranges,
1 for sets of floats given by ranges, 2 for sets given by elements. -/
def SetKind (k : Nat) : E → Prop
  | .setI _ _ => k = 0
  | .setF _ _ => k = 1
  | .setV _ v => k = 2 ∧ SetKindL k v
  | .arr _ _ es => SetKindL k es
  | .acc _ v x => SetKind k v ∧ SetKindL k x
  | .fld _ v f => SetKind k v ∧ SetKind k f
  | .comp _ _ e g _ => SetKind k e ∧ SetKindL k g
  | .ite _ c e => SetKindL k c ∧ SetKind k e
  | .bin _ _ l r => SetKind k l ∧ SetKind k r
  | .un _ _ e => SetKind k e
  | .call _ _ _ a => SetKindL k a
  | .vd _ t i e => SetKind k t ∧ SetKind k i ∧ SetKind k e
  | .lets _ d b => SetKindL k d ∧ SetKind k b
  | .ti _ r d => SetKindL k r ∧ SetKind k d
  | _ => True
/-- `SetKind` for a vector of expressions. -/
def SetKindL (k : Nat) : List E → Prop
  | [] => True
  | e :: es => SetKind k e ∧ SetKindL k es
end

theorem lexc_cons (a b : Int) (r s : List Int) :
    lexc (a :: r) (b :: s) = thenCmp (cmpInt a b) (lexc r s) := rfl

theorem cmpExt_fin (a b : Int) : cmpExt (.fin a) (.fin b) = cmpInt a b := by
  simp only [cmpExt, cmpInt, sgn, Ext.fin.injEq]
  congr 1
  simp

theorem lexc_keyE (a b : Ext) (r s : List Int) :
    lexc (keyE a ++ r) (keyE b ++ s) = thenCmp (cmpExt a b) (lexc r s) := by
  cases a <;> cases b <;> simp [keyE, lexc_cons, cmpInt_self, zero_then, cmpExt_fin] <;>
    simp [cmpInt, cmpExt, sgn, thenCmp]

theorem cmpStr_cons (a b : Nat) (as bs : List Nat) :
    cmpStr (a :: as) (b :: bs) = thenCmp (cmpInt (a + 1) (b + 1)) (cmpStr as bs) := by
  rcases Nat.lt_trichotomy a b with h | h | h
  · rw [cmpInt_lt (by omega)]
    simp [thenCmp, cmpStr, strLt, h, Nat.ne_of_lt h]
  · subst h; rw [cmpInt_self, zero_then]; simp [cmpStr, strLt]
  · rw [cmpInt_gt (by omega)]
    simp [thenCmp, cmpStr, strLt, Nat.ne_of_gt h, Nat.not_lt.2 (Nat.le_of_lt h)]

theorem lexc_keyS : ∀ (a b : List Nat) (r s : List Int),
    lexc (keyS a ++ r) (keyS b ++ s) = thenCmp (cmpStr a b) (lexc r s)
  | [], [], r, s => by simp [keyS, lexc_cons, cmpInt_self, zero_then, cmpStr]
  | [], b :: bs, r, s => by
    simp only [keyS, List.cons_append, List.nil_append, lexc_cons]
    rw [cmpInt_lt (by omega)]; simp [cmpStr, strLt, thenCmp]
  | a :: as, [], r, s => by
    simp only [keyS, List.cons_append, List.nil_append, lexc_cons]
    rw [cmpInt_gt (by omega)]; simp [cmpStr, strLt, thenCmp]
  | a :: as, b :: bs, r, s => by
    simp only [keyS, List.cons_append, lexc_cons]
    rw [lexc_keyS as bs, cmpStr_cons, then_assoc]

theorem len_cong {α β : Type} {a : List α} {b : List β} {x y : Int}
    (h : a.length = b.length → x = y) :
    thenCmp (cmpInt a.length b.length) x = thenCmp (cmpInt a.length b.length) y :=
  then_congr fun h' => h (by rw [cmpInt_eq_zero] at h'; omega)

theorem lexc_keyR : ∀ (a b : List Range) (r s : List Int), a.length = b.length →
    lexc (keyR a ++ r) (keyR b ++ s) = thenCmp (cmpRanges a b) (lexc r s)
  | [], [], r, s, _ => by simp [keyR, cmpRanges, zero_then]
  | [], _ :: _, _, _, h => by simp at h
  | _ :: _, [], _, _, h => by simp at h
  | a :: as, b :: bs, r, s, h => by
    simp only [keyR, cmpRanges, List.append_assoc]
    rw [lexc_keyE, lexc_keyE, lexc_keyR as bs r s (by simpa using h), then_assoc, then_assoc]

theorem lexc_keyF : ∀ (a b : List (Flt × Flt)) (r s : List Int), a.length = b.length →
    lexc (keyF a ++ r) (keyF b ++ s) = thenCmp (cmpFltRanges a b) (lexc r s)
  | [], [], r, s, _ => by simp [keyF, cmpFltRanges, zero_then]
  | [], _ :: _, _, _, h => by simp at h
  | _ :: _, [], _, _, h => by simp at h
  | a :: as, b :: bs, r, s, h => by
    simp only [keyF, cmpFltRanges, List.append_assoc]
    rw [lexc_keyE, lexc_keyE, lexc_keyF as bs r s (by simpa using h), then_assoc, then_assoc]

theorem lexc_keyN : ∀ (a b : List Nat) (r s : List Int), a.length = b.length →
    lexc (keyN a ++ r) (keyN b ++ s) = thenCmp (cmpNats a b) (lexc r s)
  | [], [], r, s, _ => by simp [keyN, cmpNats, zero_then]
  | [], _ :: _, _, _, h => by simp at h
  | _ :: _, [], _, _, h => by simp at h
  | a :: as, b :: bs, r, s, h => by
    simp only [keyN, cmpNats, List.cons_append, lexc_cons]
    rw [lexc_keyN as bs r s (by simpa using h), then_assoc]

theorem lexc_keyId (n0 : List Nat) (i0 : Int) (n1 : List Nat) (i1 : Int) (r s : List Int) :
    lexc (i0 :: ((if i0 = -1 then keyS n0 else []) ++ r))
      (i1 :: ((if i1 = -1 then keyS n1 else []) ++ s)) =
      thenCmp (cmpId n0 i0 n1 i1) (lexc r s) := by
  rw [lexc_cons, cmpId, then_assoc]
  apply then_congr
  intro h
  rw [cmpInt_eq_zero] at h
  subst h
  split
  · rw [lexc_keyS]
  · simp [zero_then]

/-- Two nodes of different kinds. -/
theorem key_diff {a b : E} {r s : List Int} {x y : List Int} (ha : key a = eid a :: x)
    (hb : key b = eid b :: y) (h : eid a ≠ eid b)
    (hc : cmp a b = if eid a < eid b then -1 else 1) :
    lexc (key a ++ r) (key b ++ s) = thenCmp (cmp a b) (lexc r s) := by
  rw [ha, hb, hc]
  simp only [List.cons_append, lexc_cons]
  rcases Int.lt_trichotomy (eid a) (eid b) with h' | h' | h'
  · rw [cmpInt_lt h', if_pos h']; simp [thenCmp]
  · exact absurd h' h
  · rw [cmpInt_gt h', if_neg (by omega)]; simp [thenCmp]

theorem key_head (e : E) : ∃ x, key e = eid e :: x := by
  cases e <;> simp [key, eid]

theorem cmp_diff (a b : E) (h : eid a ≠ eid b) : cmp a b = if eid a < eid b then -1 else 1 := by
  cases a <;> cases b <;> first
    | (exact absurd rfl h)
    | (simp [cmp, eid])

theorem lexc_diff {a b : E} {r s : List Int} (he : eid a ≠ eid b) :
    lexc (key a ++ r) (key b ++ s) = thenCmp (cmp a b) (lexc r s) := by
  obtain ⟨x, hx⟩ := key_head a
  obtain ⟨y, hy⟩ := key_head b
  exact key_diff hx hy he (cmp_diff a b he)

mutual
theorem lexc_key {k : Nat} : ∀ (a b : E) (r s : List Int), SetKind k a → SetKind k b →
    lexc (key a ++ r) (key b ++ s) = thenCmp (cmp a b) (lexc r s)
  | .nul, b, r, s, wa, wb => by
    cases b with
    | nul =>
      simp [key, lexc_cons, cmpInt_self, zero_then, cmp, eid, intOf, fltOf, setElems]
    | _ => exact lexc_diff (by simp [eid])
  | .intU v, b, r, s, wa, wb => by
    cases b with
    | intU w =>
      simp only [key, List.cons_append, lexc_cons, cmpInt_self, zero_then]
      rw [lexc_keyE]; simp [cmp, eid, intOf]
    | int _ w =>
      simp only [key, List.cons_append, lexc_cons, cmpInt_self, zero_then]
      rw [lexc_keyE]; simp [cmp, eid, intOf]
    | _ => exact lexc_diff (by simp [eid])
  | .int _ v, b, r, s, wa, wb => by
    cases b with
    | intU w =>
      simp only [key, List.cons_append, lexc_cons, cmpInt_self, zero_then]
      rw [lexc_keyE]; simp [cmp, eid, intOf]
    | int _ w =>
      simp only [key, List.cons_append, lexc_cons, cmpInt_self, zero_then]
      rw [lexc_keyE]; simp [cmp, eid, intOf]
    | _ => exact lexc_diff (by simp [eid])
  | .fltU v, b, r, s, wa, wb => by
    cases b with
    | fltU w =>
      simp only [key, List.cons_append, lexc_cons, cmpInt_self, zero_then]
      rw [lexc_keyE]; simp [cmp, eid, intOf, fltOf]
    | flt _ w =>
      simp only [key, List.cons_append, lexc_cons, cmpInt_self, zero_then]
      rw [lexc_keyE]; simp [cmp, eid, intOf, fltOf]
    | _ => exact lexc_diff (by simp [eid])
  | .flt _ v, b, r, s, wa, wb => by
    cases b with
    | fltU w =>
      simp only [key, List.cons_append, lexc_cons, cmpInt_self, zero_then]
      rw [lexc_keyE]; simp [cmp, eid, intOf, fltOf]
    | flt _ w =>
      simp only [key, List.cons_append, lexc_cons, cmpInt_self, zero_then]
      rw [lexc_keyE]; simp [cmp, eid, intOf, fltOf]
    | _ => exact lexc_diff (by simp [eid])
  | .setI _ v, b, r, s, wa, wb => by
    cases b with
    | setI _ w =>
      simp only [key, List.cons_append, lexc_cons, cmpInt_self, zero_then, cmp, then_assoc]
      exact len_cong (lexc_keyR v w r s)
    | setF _ w =>
      simp [SetKind] at wa wb; omega
    | setV _ w =>
      simp [SetKind] at wa wb; omega
    | _ => exact lexc_diff (by simp [eid])
  | .setF _ v, b, r, s, wa, wb => by
    cases b with
    | setF _ w =>
      simp only [key, List.cons_append, lexc_cons, cmpInt_self, zero_then, cmp, then_assoc]
      exact len_cong (lexc_keyF v w r s)
    | setI _ w =>
      simp [SetKind] at wa wb; omega
    | setV _ w =>
      simp [SetKind] at wa wb; omega
    | _ => exact lexc_diff (by simp [eid])
  | .setV _ v, b, r, s, wa, wb => by
    cases b with
    | setV _ w =>
      simp only [key, List.cons_append, lexc_cons, cmpInt_self, zero_then, cmp, then_assoc]
      exact len_cong (lexc_keyL v w r s wa.2 wb.2)
    | setI _ w =>
      simp [SetKind] at wa wb; omega
    | setF _ w =>
      simp [SetKind] at wa wb; omega
    | _ => exact lexc_diff (by simp [eid])
  | .bool _ v, b, r, s, wa, wb => by
    cases b with
    | bool _ w =>
      simp only [key, List.cons_append, lexc_cons, cmpInt_self, zero_then, cmp, List.nil_append]
    | _ => exact lexc_diff (by simp [eid])
  | .str _ v, b, r, s, wa, wb => by
    cases b with
    | str _ w =>
      simp only [key, List.cons_append, lexc_cons, cmpInt_self, zero_then, cmp]
      rw [lexc_keyS]
    | _ => exact lexc_diff (by simp [eid])
  | .id _ _ n0 i0, b, r, s, wa, wb => by
    cases b with
    | id _ _ n1 i1 =>
      have h := lexc_keyId n0 i0 n1 i1 r s
      rw [lexc_cons] at h
      simp only [key, List.cons_append, lexc_cons, cmpInt_self, zero_then, cmp, h]
    | _ => exact lexc_diff (by simp [eid])
  | .anon _ v, b, r, s, wa, wb => by
    cases b with
    | anon _ w =>
      simp [key, lexc_cons, cmpInt_self, zero_then, cmp, eid, intOf, fltOf, setElems]
    | _ => exact lexc_diff (by simp [eid])
  | .arr _ _ v, b, r, s, wa, wb => by
    cases b with
    | arr _ _ w =>
      simp only [key, List.cons_append, lexc_cons, cmpInt_self, zero_then, cmp, then_assoc]
      exact len_cong (lexc_keyL v w r s wa wb)
    | _ => exact lexc_diff (by simp [eid])
  | .acc _ v x, b, r, s, wa, wb => by
    cases b with
    | acc _ w y =>
      simp only [key, List.cons_append, List.append_assoc, lexc_cons, cmpInt_self, zero_then, cmp,
        then_assoc]
      rw [lexc_key v w _ _ wa.1 wb.1, lexc_cons,
        len_cong (lexc_keyL x y r s wa.2 wb.2)]
    | _ => exact lexc_diff (by simp [eid])
  | .fld _ v f, b, r, s, wa, wb => by
    cases b with
    | fld _ w g =>
      simp only [key, List.cons_append, List.append_assoc, lexc_cons, cmpInt_self, zero_then, cmp,
        then_assoc]
      rw [lexc_key f g _ _ wa.2 wb.2, lexc_key v w _ _ wa.1 wb.1]
    | _ => exact lexc_diff (by simp [eid])
  | .comp _ s0 e0 g0 x0, b, r, s, wa, wb => by
    cases b with
    | comp _ s1 e1 g1 x1 =>
      simp only [key, List.cons_append, List.append_assoc, lexc_cons, cmpInt_self, zero_then, cmp,
        then_assoc]
      rw [lexc_key e0 e1 _ _ wa.1 wb.1, lexc_cons,
        len_cong (lexc_keyL g0 g1 _ _ wa.2 wb.2), lexc_cons,
        len_cong (lexc_keyN x0 x1 r s)]
    | _ => exact lexc_diff (by simp [eid])
  | .ite _ c0 e0, b, r, s, wa, wb => by
    cases b with
    | ite _ c1 e1 =>
      simp only [key, List.cons_append, List.append_assoc, lexc_cons, cmpInt_self, zero_then, cmp,
        then_assoc]
      rw [len_cong (lexc_keyL c0 c1 _ _ wa.1 wb.1), lexc_key e0 e1 _ _ wa.2 wb.2]
    | _ => exact lexc_diff (by simp [eid])
  | .bin _ o0 l0 r0, b, r, s, wa, wb => by
    cases b with
    | bin _ o1 l1 r1 =>
      simp only [key, List.cons_append, List.append_assoc, lexc_cons, cmpInt_self, zero_then, cmp,
        then_assoc]
      rw [lexc_key l0 l1 _ _ wa.1 wb.1, lexc_key r0 r1 _ _ wa.2 wb.2]
    | _ => exact lexc_diff (by simp [eid])
  | .un _ o0 e0, b, r, s, wa, wb => by
    cases b with
    | un _ o1 e1 =>
      simp only [SetKind] at wa wb
      simp only [key, List.cons_append, List.append_assoc, lexc_cons, cmpInt_self, zero_then, cmp,
        then_assoc]
      rw [lexc_key e0 e1 _ _ wa wb]
    | _ => exact lexc_diff (by simp [eid])
  | .call _ n0 _ a0, b, r, s, wa, wb => by
    cases b with
    | call _ n1 _ a1 =>
      simp only [key, List.cons_append, List.append_assoc, lexc_cons, cmpInt_self, zero_then, cmp,
        then_assoc]
      rw [lexc_keyS, lexc_cons, len_cong (lexc_keyL a0 a1 r s wa wb)]
    | _ => exact lexc_diff (by simp [eid])
  | .vd _ t0 i0 e0, b, r, s, wa, wb => by
    cases b with
    | vd _ t1 i1 e1 =>
      simp only [key, List.cons_append, List.append_assoc, lexc_cons, cmpInt_self, zero_then, cmp,
        then_assoc]
      rw [lexc_key i0 i1 _ _ wa.2.1 wb.2.1, lexc_key t0 t1 _ _ wa.1 wb.1,
        lexc_key e0 e1 _ _ wa.2.2 wb.2.2]
    | _ => exact lexc_diff (by simp [eid])
  | .lets _ d0 b0, b, r, s, wa, wb => by
    cases b with
    | lets _ d1 b1 =>
      simp only [key, List.cons_append, List.append_assoc, lexc_cons, cmpInt_self, zero_then, cmp,
        then_assoc]
      rw [lexc_key b0 b1 _ _ wa.2 wb.2, lexc_cons, len_cong (lexc_keyL d0 d1 r s wa.1 wb.1)]
    | _ => exact lexc_diff (by simp [eid])
  | .ti _ r0 d0, b, r, s, wa, wb => by
    cases b with
    | ti _ r1 d1 =>
      simp only [key, List.cons_append, List.append_assoc, lexc_cons, cmpInt_self, zero_then, cmp,
        then_assoc]
      rw [len_cong (lexc_keyL r0 r1 _ _ wa.1 wb.1), lexc_key d0 d1 _ _ wa.2 wb.2]
    | _ => exact lexc_diff (by simp [eid])
  | .tiid _ _ n0, b, r, s, wa, wb => by
    cases b with
    | tiid _ _ n1 =>
      simp only [key, List.cons_append, lexc_cons, cmpInt_self, zero_then, cmp]
      rw [lexc_keyS]
    | _ => exact lexc_diff (by simp [eid])
theorem lexc_keyL {k : Nat} : ∀ (a b : List E) (r s : List Int), SetKindL k a → SetKindL k b →
    a.length = b.length → lexc (keyL a ++ r) (keyL b ++ s) = thenCmp (cmpL a b) (lexc r s)
  | [], [], r, s, _, _, _ => by simp [keyL, cmpL, zero_then]
  | [], _ :: _, _, _, _, _, h => by simp at h
  | _ :: _, [], _, _, _, _, h => by simp at h
  | a :: as, b :: bs, r, s, wa, wb, h => by
    simp only [keyL, cmpL, List.append_assoc]
    rw [lexc_key a b _ _ wa.1 wb.1, lexc_keyL as bs r s wa.2 wb.2 (by simpa using h), then_assoc]
end

/-- **C66, order (partial).** Among expressions whose set literals are of one kind,
`Expression::compare` is a total preorder that answers `-1`, `0` or `1`. Missing: expressions with
set literals of different kinds, see `C66_order_fails`. -/
theorem _root_.MZ.C66_order_partial (k : Nat) :
    (∀ a, SetKind k a → cmp a a = 0) ∧
    (∀ a b, SetKind k a → SetKind k b →
      (cmp a b = -1 ∨ cmp a b = 0 ∨ cmp a b = 1) ∧ cmp a b = - cmp b a) ∧
    (∀ a b c, SetKind k a → SetKind k b → SetKind k c → cmp a b ≤ 0 → cmp b c ≤ 0 →
      cmp a c ≤ 0) := by
  have h : ∀ a b, SetKind k a → SetKind k b → cmp a b = lexc (key a) (key b) := by
    intro a b wa wb
    have := lexc_key a b [] [] wa wb
    simpa [lexc, then_zero] using this.symm
  refine ⟨fun a wa => ?_, fun a b wa wb => ⟨?_, ?_⟩, fun a b c wa wb wc h1 h2 => ?_⟩
  · have h1 := h a a wa wa
    have h2 := lexc_neg (key a) (key a)
    omega
  · rw [h a b wa wb]; exact lexc_range _ _
  · rw [h a b wa wb, h b a wb wa]; exact lexc_neg _ _
  · rw [h a b wa wb] at h1; rw [h b c wb wc] at h2; rw [h a c wa wc]; exact lexc_trans h1 h2

/-- **C66, the order is not one across kinds of set literals**: `{1}` and `{2}` given by ranges
are different but both compare like the set literal `{}` that has not been evaluated. -/
theorem _root_.MZ.C66_order_fails : ∃ a b c : E,
    cmp a b = 0 ∧ cmp b c = 0 ∧ cmp a c = -1 ∧ cmp c a = 1 :=
  ⟨.setI ⟨0, 0⟩ [⟨.fin 1, .fin 1⟩], .setV ⟨0, 0⟩ [], .setI ⟨0, 0⟩ [⟨.fin 2, .fin 2⟩],
    by decide, by decide, by decide, by decide⟩

mutual
/-- Stored hash values of identifiers are values of `hN` on the name, and type-inst identifiers at
the same address have the same name. -/
def Named (hN : List Nat → Int → Nat) (tn : Nat → List Nat) : E → Prop
  | .id hd _ n i => hd.h = hN n i
  | .tiid _ a n => n = tn a
  | .setV _ v => NamedL hN tn v
  | .arr _ _ es => NamedL hN tn es
  | .acc _ v x => Named hN tn v ∧ NamedL hN tn x
  | .fld _ v f => Named hN tn v ∧ Named hN tn f
  | .comp _ _ e g x => Named hN tn e ∧ NamedL hN tn g ∧ GIndexOk g.length x
  | .ite _ c e => NamedL hN tn c ∧ Named hN tn e
  | .bin _ _ l r => Named hN tn l ∧ Named hN tn r
  | .un _ _ e => Named hN tn e
  | .call _ _ _ a => NamedL hN tn a
  | .vd _ t i e => Named hN tn t ∧ Named hN tn i ∧ Named hN tn e
  | .lets _ d b => NamedL hN tn d ∧ Named hN tn b
  | .ti _ r d => NamedL hN tn r ∧ Named hN tn d
  | _ => True
/-- `Named` for a vector of expressions. -/
def NamedL (hN : List Nat → Int → Nat) (tn : Nat → List Nat) : List E → Prop
  | [] => True
  | e :: es => Named hN tn e ∧ NamedL hN tn es
end

theorem cmpExt_self (a : Ext) : cmpExt a a = 0 := by
  simp only [cmpExt, sgn]; cases a <;> simp
theorem cmpStr_self (a : List Nat) : cmpStr a a = 0 := by simp [cmpStr]
theorem cmpRanges_self : ∀ s, cmpRanges s s = 0
  | [] => rfl
  | r :: rs => by simp [cmpRanges, cmpExt_self, zero_then, cmpRanges_self rs]
theorem cmpNats_self : ∀ s, cmpNats s s = 0
  | [] => rfl
  | r :: rs => by simp [cmpNats, cmpInt_self, zero_then, cmpNats_self rs]
theorem cmpFlt_eq : ∀ s t, fltRangesEq s t = true → cmpFltRanges s t = 0 ∧ s.length = t.length
  | [], [], _ => by simp [cmpFltRanges]
  | [], _ :: _, h => by simp [fltRangesEq] at h
  | _ :: _, [], h => by simp [fltRangesEq] at h
  | a :: i, b :: j, h => by
    simp [fltRangesEq] at h
    have := cmpFlt_eq i j h.2
    simp [cmpFltRanges, h.1.1, h.1.2, cmpExt_self, zero_then, this]

mutual
theorem equal_cmp {hN : List Nat → Int → Nat} {tn : Nat → List Nat} {flat : Nat → Option Nat}
    (inj : ∀ n i m j, hN n i = hN m j → n = m ∧ i = j) :
    ∀ {a b : E}, Named hN tn a → Named hN tn b → equal flat a b = true → cmp a b = 0
  | .nul, b, _, _, h => by
    cases b <;> simp [equal] at h; simp [cmp, eid, intOf, fltOf, setElems, cmpInt_self]
  | .intU v, b, _, _, h => by
    cases b <;> simp [equal] at h; simp [cmp, eid, intOf, cmpExt_self, h]
  | .fltU f, b, _, _, h => by
    cases b <;> simp [equal] at h; simp [cmp, eid, intOf, fltOf, cmpExt_self, h]
  | .int _ v, b, _, _, h => by
    cases b <;> simp [equal] at h; simp [cmp, eid, intOf, cmpExt_self, h]
  | .flt _ f, b, _, _, h => by
    cases b <;> simp [equal] at h; simp [cmp, eid, intOf, fltOf, cmpExt_self, h]
  | .setI _ s, b, _, _, h => by
    cases b <;> simp [equal, rangesEqual_iff] at h
    simp [cmp, cmpInt_self, zero_then, cmpRanges_self, h]
  | .setF _ s, b, _, _, h => by
    cases b <;> simp [equal] at h
    simp [cmp, cmpInt_self, zero_then, cmpFlt_eq _ _ h.2]
  | .setV _ v, b, wa, wb, h => by
    cases b <;> simp [equal] at h
    simp [cmp, cmpInt_self, zero_then, equalL_length h.2, equalL_cmp inj wa wb h.2]
  | .bool _ v, b, _, _, h => by
    cases b <;> simp [equal] at h; simp [cmp, cmpInt_self, h]
  | .str _ v, b, _, _, h => by
    cases b <;> simp [equal] at h; simp [cmp, cmpStr_self, h]
  | .id _ d n i, b, wa, wb, h => by
    cases b <;> simp [equal] at h
    simp only [Named] at wa wb
    have h1 : _ = _ := (by simpa [hdEq] using h.1 : _ ∧ _).2
    rw [wa, wb] at h1
    obtain ⟨rfl, rfl⟩ := inj _ _ _ _ h1
    simp [cmp, cmpId, cmpInt_self, zero_then, cmpStr_self]
  | .anon _ a, b, _, _, h => by
    cases b <;> simp [equal] at h; simp [cmp, eid, intOf, fltOf, setElems, cmpInt_self]
  | .arr _ d es, b, wa, wb, h => by
    cases b <;> simp [equal] at h
    simp [cmp, cmpInt_self, zero_then, equalL_length h.2.2, equalL_cmp inj wa wb h.2.2]
  | .acc _ v x, b, wa, wb, h => by
    cases b <;> simp [equal] at h
    simp [cmp, cmpInt_self, zero_then, equalL_length h.2.2, equalL_cmp inj wa.2 wb.2 h.2.2,
      equal_cmp inj wa.1 wb.1 h.2.1]
  | .fld _ v f, b, wa, wb, h => by
    cases b <;> simp [equal] at h
    simp [cmp, zero_then, equal_cmp inj wa.1 wb.1 h.2.2, equal_cmp inj wa.2 wb.2 h.2.1]
  | .comp _ s e g x, b, wa, wb, h => by
    cases b <;> simp [equal] at h
    obtain ⟨wa1, wa2, wa3⟩ := wa
    obtain ⟨wb1, wb2, wb3⟩ := wb
    have hl := equalL_length h.2.2.2.1
    rw [hl] at wa3
    have hx := gIndex_eq wa3 wb3 h.2.2.2.2
    simp [cmp, cmpInt_self, zero_then, h.2.1, hx, hl, cmpNats_self, equal_cmp inj wa1 wb1 h.2.2.1,
      equalL_cmp inj wa2 wb2 h.2.2.2.1]
  | .ite _ c e, b, wa, wb, h => by
    cases b <;> simp [equal] at h
    simp [cmp, cmpInt_self, zero_then, equalL_length h.2.1, equalL_cmp inj wa.1 wb.1 h.2.1,
      equal_cmp inj wa.2 wb.2 h.2.2]
  | .bin _ o l r, b, wa, wb, h => by
    cases b <;> simp [equal] at h
    simp [cmp, cmpInt_self, zero_then, h.2.1, equal_cmp inj wa.1 wb.1 h.2.2.1,
      equal_cmp inj wa.2 wb.2 h.2.2.2]
  | .un _ o e, b, wa, wb, h => by
    cases b <;> simp [equal] at h
    simp only [Named] at wa wb
    simp [cmp, cmpInt_self, zero_then, h.2.1, equal_cmp inj wa wb h.2.2]
  | .call _ n d a, b, wa, wb, h => by
    cases b <;> simp [equal] at h
    simp [cmp, cmpInt_self, cmpStr_self, zero_then, h.2.1, equalL_length h.2.2.2,
      equalL_cmp inj wa wb h.2.2.2]
  | .vd _ t i e, b, wa, wb, h => by
    cases b <;> simp [equal] at h
    simp [cmp, zero_then, equal_cmp inj wa.1 wb.1 h.2.1, equal_cmp inj wa.2.1 wb.2.1 h.2.2.1,
      equal_cmp inj wa.2.2 wb.2.2 h.2.2.2]
  | .lets _ d e, b, wa, wb, h => by
    cases b <;> simp [equal] at h
    simp [cmp, cmpInt_self, zero_then, equalL_length h.2.2, equal_cmp inj wa.2 wb.2 h.2.1,
      equalL_cmp inj wa.1 wb.1 h.2.2]
  | .ti _ r d, b, wa, wb, h => by
    cases b <;> simp [equal] at h
    simp [cmp, cmpInt_self, zero_then, equalL_length h.2.1, equalL_cmp inj wa.1 wb.1 h.2.1,
      equal_cmp inj wa.2 wb.2 h.2.2]
  | .tiid _ a n, b, wa, wb, h => by
    cases b <;> simp [equal] at h
    simp only [Named] at wa wb
    rw [wa, wb, h.1]
    simp [cmp, cmpStr_self]
theorem equalL_cmp {hN : List Nat → Int → Nat} {tn : Nat → List Nat} {flat : Nat → Option Nat}
    (inj : ∀ n i m j, hN n i = hN m j → n = m ∧ i = j) :
    ∀ {a b : List E}, NamedL hN tn a → NamedL hN tn b → equalL flat a b = true → cmpL a b = 0
  | [], b, _, _, h => by cases b <;> simp [cmpL]
  | a :: as, b, wa, wb, h => by
    cases b <;> simp [equalL] at h
    simp [cmpL, zero_then, equal_cmp inj wa.1 wb.1 h.1, equalL_cmp inj wa.2 wb.2 h.2]
end

/-- **C66, `compare` is 0 on equal expressions (partial)**: if the hash values of identifiers are
up to date and the hash function of names has no collisions. Missing: collisions, see
`C66_equal_compare_fails`. -/
theorem _root_.MZ.C66_equal_compare_partial (hN : List Nat → Int → Nat) (tn : Nat → List Nat)
    (flat : Nat → Option Nat) (inj : ∀ n i m j, hN n i = hN m j → n = m ∧ i = j) (a b : E)
    (wa : Named hN tn a) (wb : Named hN tn b) (h : equal flat a b = true) : cmp a b = 0 :=
  equal_cmp inj wa wb h

/-- **C66, with a collision** two identifiers that stand for the same variable of the flat model
are equal, but `compare` orders them by name. -/
theorem _root_.MZ.C66_equal_compare_fails : ∃ (flat : Nat → Option Nat) (a b : E),
    equal flat a b = true ∧ cmp a b = -1 :=
  ⟨fun _ => some 3, .id ⟨0, 7⟩ (some 1) [120] (-1), .id ⟨0, 7⟩ (some 2) [121] (-1),
    by decide, by decide⟩

/-- **C66, `compare` is 0 also on different expressions**: it looks neither at the index sets of
array literals nor at the function that is called. -/
theorem _root_.MZ.C66_compare_zero_fails : ∃ a b c d : E,
    cmp a b = 0 ∧ equal (fun _ => none) a b = false ∧
    cmp c d = 0 ∧ equal (fun _ => none) c d = false :=
  ⟨.arr ⟨0, 7⟩ [] [.intU 1], .arr ⟨0, 8⟩ [0, 0] [.intU 1],
    .call ⟨0, 7⟩ [102] (some 1) [.intU 1], .call ⟨0, 7⟩ [102] (some 2) [.intU 1],
    by decide, by decide, by decide, by decide⟩

example : SetKind 0 (.call ⟨0, 7⟩ [102] (some 1) [.setI ⟨0, 0⟩ [⟨.fin 1, .fin 1⟩],
    .arr ⟨0, 7⟩ [] [.intU 1]]) := by simp [SetKind, SetKindL]
example : cmp (.call ⟨0, 7⟩ [102] (some 1) [.setI ⟨0, 0⟩ [⟨.fin 1, .fin 1⟩], .intU 4])
    (.call ⟨0, 7⟩ [102] (some 1) [.setI ⟨0, 0⟩ [⟨.fin 1, .fin 1⟩], .intU 3]) = 1 := by decide
example : ∃ hN : List Nat → Int → Nat, (∀ n i m j, hN n i = hN m j → n = m ∧ i = j) ∧
    Named hN (fun _ => []) (.id ⟨0, hN [120] (-1)⟩ none [120] (-1)) :=
  ⟨fun n i => Encodable.encode (n, i), fun n i m j h => by simpa using Encodable.encode_injective h,
    by simp [Named]⟩

end ExprEq
end MZ
