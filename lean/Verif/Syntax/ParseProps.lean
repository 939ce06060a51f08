import Verif.Syntax.LexProps

/-!
# Operator expressions: parsing printed text (C24)
-/

namespace MZ
namespace Syn

def allOps : List Op :=
  [.plus, .minus, .mult, .pow, .div, .idiv, .mod, .le, .lq, .gr, .gq, .eq, .nq, .isIn, .subset, .superset,
    .union, .diff, .symdiff, .intersect, .plusplus, .equiv, .impl, .rimpl, .or, .and, .xor, .dotdot]

theorem mem_allOps (o : Op) : o ∈ allOps := by cases o <;> decide

/-! ## The expected result -/

def signFold : UOp → E → E
  | .minus, .int i => .int (-i)
  | .plus, .int i => .int i
  | u, e => .un u e

def cat : Option E → E → E
  | none, e => e
  | some l, e => .bin .plusplus l e

mutual
/-- The expression that is parsed; `acc` is what has been concatenated to the left. -/
def normA (acc : Option E) : E → E
  | .int i => cat acc (.int i)
  | .ref s => cat acc (.ref s)
  | .range a b => cat acc (.range a b)
  | .call f args => cat acc (.call f (normL args))
  | .un u e => cat acc (signFold u (normA none e))
  | .bin o l r =>
    if o = .plusplus then normA (some (cat acc (normA none l))) r
    else cat acc (mkBin o (normA none l) (normA none r))

def normL : Es → Es
  | .nil => .nil
  | .cons e r => .cons (normA none e) (normL r)
end

abbrev norm (e : E) : E := normA none e

theorem eval_mkBin (A : Alg) (o l r) : eval A (mkBin o l r) = A.bin o (eval A l) (eval A r) := by
  unfold mkBin
  split <;> simp [eval]

theorem eval_signFold (A : Alg) (u e) : eval A (signFold u e) = A.un u (eval A e) := by
  unfold signFold
  split <;> simp [eval, A.neg_lit, A.pos_lit]

def evalCat (A : Alg) : Option E → A.D → A.D
  | none, d => d
  | some l, d => A.bin .plusplus (eval A l) d

theorem eval_cat (A : Alg) (acc e) : eval A (cat acc e) = evalCat A acc (eval A e) := by
  cases acc <;> simp [cat, evalCat, eval]

mutual
theorem eval_norm (A : Alg) (e : E) (acc : Option E) : eval A (normA acc e) = evalCat A acc (eval A e) := by
  match e with
  | .int i => simp only [normA, eval_cat, eval]
  | .ref s => simp only [normA, eval_cat, eval]
  | .range a b => simp only [normA, eval_cat, eval]
  | .call f args => simp only [normA, eval_cat, eval, eval_normL A args]
  | .un u e => simp only [normA, eval_cat, eval_signFold, eval, eval_norm A e none, evalCat]
  | .bin o l r =>
    rw [normA]
    split
    · rename_i h
      subst h
      rw [eval_norm A r, evalCat, eval_cat, eval_norm A l none, eval, evalCat]
      cases acc with
      | none => rfl
      | some L => simp only [evalCat, A.assoc]
    · rw [eval_cat, eval_mkBin, eval_norm A l none, eval_norm A r none, eval, evalCat, evalCat]

theorem eval_normL (A : Alg) (args : Es) : evalArgs A (normL args) = evalArgs A args := by
  match args with
  | .nil => rfl
  | .cons e r => rw [normL, evalArgs, evalArgs, eval_norm A e none, eval_normL A r, evalCat]
end

mutual
theorem norm_canonical (e : E) (h : Canonical e) : norm e = e := by
  match e, h with
  | .int i, _ => rfl
  | .ref s, _ => rfl
  | .range a b, _ => rfl
  | .call f args, h =>
    rw [norm, normA, cat, normL_canonical args h]
  | .un u e, h =>
    rw [Canonical] at h
    have := norm_canonical e h.1
    rw [norm] at this
    rw [norm, normA, cat, this]
    unfold signFold
    split
    · exact absurd rfl (h.2 (by simp) _)
    · exact absurd rfl (h.2 (by simp) _)
    · rfl
  | .bin o l r, h =>
    rw [Canonical] at h
    obtain ⟨h1, h2, h3, h4⟩ := h
    have i1 := norm_canonical l h1
    have i2 := norm_canonical r h2
    rw [norm] at i1 i2
    rw [norm, normA]
    split
    · rename_i ho
      subst ho
      rw [i1, cat]
      have key : ∀ r, norm r = r → (∀ x y, r ≠ .bin .plusplus x y) → normA (some l) r = .bin .plusplus l r := by
        intro r hr hn
        rw [norm] at hr
        cases r with
        | bin o x y =>
          rw [normA, if_neg (by rintro rfl; exact hn x y rfl)] at hr ⊢
          rw [cat] at hr
          rw [cat, hr]
        | int | ref | range => rfl
        | call f args =>
          rw [normA, cat] at hr
          rw [normA, cat, hr]
        | un u e =>
          rw [normA, cat] at hr
          rw [normA, cat, hr]
      exact key r i2 (h4 rfl)
    · rw [cat, i1, i2]
      unfold mkBin
      split
      · rename_i h _ _ 
        exact absurd ⟨_, _, rfl, rfl⟩ (h3 rfl)
      · rfl

theorem normL_canonical (args : Es) (h : CanonicalL args) : normL args = args := by
  match args, h with
  | .nil, _ => rfl
  | .cons e r, h =>
    have := norm_canonical e h.1
    rw [norm] at this
    rw [normL, this, normL_canonical r h.2]
end

/-! ## Sorts and tables -/

def fitsB (a b : Srt) : Bool := decide (a = b) || (decide (a = .bool) && decide (b = .num))

def Op.res : Op → Srt
  | .union | .diff | .symdiff | .intersect | .dotdot => .set
  | .plus | .minus | .mult | .div | .idiv | .mod | .pow => .num
  | .plusplus => .other
  | _ => .bool

def Op.argL : Op → Option Srt
  | .equiv | .impl | .rimpl | .or | .xor | .and => some .bool
  | .le | .lq | .gr | .gq | .eq | .nq => none
  | .subset | .superset | .union | .diff | .symdiff | .intersect => some .set
  | .plusplus => some .other
  | _ => some .num

def Op.argR : Op → Option Srt
  | .isIn => some .set
  | o => o.argL

def compat (a : Option Srt) (s : Srt) : Bool := a.elim true (fun t => fitsB s t)

theorem fits_iff (a b) : Fits a b ↔ fitsB a b = true := by
  cases a <;> cases b <;> simp [Fits, fitsB]

theorem sorted_bin {Γ o l r s} (h : Sorted Γ (.bin o l r) s) :
    (∃ t, Sorted Γ l t ∧ ∀ u, o.argL = some u → t = u) ∧ (∃ t, Sorted Γ r t ∧ ∀ u, o.argR = some u → t = u) ∧
      fitsB o.res s = true := by
  rw [Sorted.eq_def] at h
  cases o <;> simp only at h
  case le | lq | gr | gq | eq | nq =>
    all_goals
    obtain ⟨⟨t, h1, h2⟩, h3⟩ := h
    exact ⟨⟨t, h1, fun u hu => by simp [Op.argL] at hu⟩, ⟨t, h2, fun u hu => by simp [Op.argR, Op.argL] at hu⟩,
      (fits_iff _ _).1 h3⟩
  all_goals
    obtain ⟨h1, h2, h3⟩ := h
    refine ⟨⟨_, h1, fun u hu => Option.some.inj hu⟩, ⟨_, h2, fun u hu => Option.some.inj hu⟩, ?_⟩
    first
    | exact (fits_iff _ _).1 h3
    | (subst h3; rfl)

theorem compat_of {a : Option Srt} {t s} (h : ∀ u, a = some u → t = u) (hf : fitsB s t = true) : compat a s = true := by
  cases a with
  | none => rfl
  | some u => rw [h u rfl] at hf; exact hf

theorem table_right (o o' : Op) : compat o.argR o'.res = true → o'.prec < o.prec → o.level < o'.level := by
  have : ∀ o ∈ allOps, ∀ o' ∈ allOps, compat o.argR o'.res = true → o'.prec < o.prec → o.level < o'.level := by
    decide +kernel
  exact this o (mem_allOps o) o' (mem_allOps o')

theorem table_left (o o' : Op) : compat o.argL o'.res = true → o'.prec < o.prec → o.level < o'.level := by
  have : ∀ o ∈ allOps, ∀ o' ∈ allOps, compat o.argL o'.res = true → o'.prec < o.prec → o.level < o'.level := by
    decide +kernel
  exact this o (mem_allOps o) o' (mem_allOps o')

theorem table_same (o o' : Op) : compat o.argL o'.res = true → o'.prec = o.prec → o.assoc = .left →
    o.level = o'.level ∧ o.nonassoc = false := by
  have : ∀ o ∈ allOps, ∀ o' ∈ allOps, compat o.argL o'.res = true → o'.prec = o.prec → o.assoc = .left →
      o.level = o'.level ∧ o.nonassoc = false := by
    decide +kernel
  exact this o (mem_allOps o) o' (mem_allOps o')

theorem table_range (o : Op) : (compat o.argL .set = true ∨ compat o.argR .set = true) → o.level < 9 := by
  have : ∀ o ∈ allOps, (compat o.argL .set = true ∨ compat o.argR .set = true) → o.level < 9 := by
    decide +kernel
  exact this o (mem_allOps o)

theorem table_cat (o : Op) : o ≠ .plusplus → o.level < 13 := by
  cases o <;> decide

theorem level_pow (o : Op) : o ≠ .plusplus → o ≠ .pow → o.level ≤ 11 := by
  cases o <;> decide

theorem level_eleven (o : Op) : o.level = 11 → o.nonassoc = false := by
  cases o <;> decide

/-! ## Exposed levels -/

/-- Level of the rule that completes the expression. -/
def plevel : E → Nat
  | .bin o _ _ => o.level
  | .range _ _ => 9
  | .un u _ => u.level
  | .int i => if i < 0 then 11 else 100
  | _ => 100

/-- Levels of the rules completed at the end of the expression. -/
def rightLevels : E → List Nat
  | .int i => if i < 0 then [11] else []
  | .range _ b => 9 :: (if b < 0 then [11] else [])
  | .bin o _ r =>
    if o = .pow ∧ print r = ['-', '1'] then []
    else o.level :: (if parenR o r then [] else rightLevels r)
  | .un u e => u.level :: (if parenU e then [] else rightLevels e)
  | _ => []

/-- Levels of the operators that meet the stack below the expression. -/
def leftLevels : E → List Nat
  | .range _ _ => [9]
  | .bin o l r =>
    (if o = .pow ∧ print r = ['-', '1'] then [] else [o.level]) ++ (if parenL o l then [] else leftLevels l)
  | _ => []

theorem parenR_bin {o o' : Op} {x y} (h : parenR o (.bin o' x y) = false) :
    o'.prec < o.prec ∨ (o'.prec = o.prec ∧ o.assoc = .right) := by
  by_cases h1 : o'.prec < o.prec
  · exact .inl h1
  · right
    have h2 : parenR o (.bin o' x y) =
        (decide (o.prec < o'.prec) || (decide (o.prec = o'.prec) && decide (o.assoc ≠ .right))) := rfl
    rw [h2, Bool.or_eq_false_iff, Bool.and_eq_false_iff] at h
    obtain ⟨h3, h4⟩ := h
    have h3 := of_decide_eq_false h3
    have h5 : o.prec = o'.prec := by omega
    rcases h4 with h4 | h4
    · exact absurd h5 (of_decide_eq_false h4)
    · exact ⟨h5.symm, by simpa using of_decide_eq_false h4⟩

theorem parenL_bin {o o' : Op} {x y} (h : parenL o (.bin o' x y) = false) :
    o'.prec < o.prec ∨ (o'.prec = o.prec ∧ o.assoc = .left) := by
  by_cases h1 : o'.prec < o.prec
  · exact .inl h1
  · right
    have h2 : parenL o (.bin o' x y) =
        (decide (o.prec < o'.prec) || (decide (o.prec = o'.prec) && decide (o.assoc ≠ .left))) := rfl
    rw [h2, Bool.or_eq_false_iff, Bool.and_eq_false_iff] at h
    obtain ⟨h3, h4⟩ := h
    have h3 := of_decide_eq_false h3
    have h5 : o.prec = o'.prec := by omega
    rcases h4 with h4 | h4
    · exact absurd h5 (of_decide_eq_false h4)
    · exact ⟨h5.symm, by simpa using of_decide_eq_false h4⟩

theorem fits_self (s) : fitsB s s = true := by cases s <;> rfl

/-- An operand that is not in parentheses and is an operator expression. -/
theorem right_open {Γ o r t} (hs : Sorted Γ r t) (ht : ∀ u, o.argR = some u → t = u) (hp : parenR o r = false) :
    o.level < plevel r ∨ 11 ≤ plevel r := by
  cases r with
  | int i => right; rw [plevel]; split <;> omega
  | ref => right; simp [plevel]
  | call => right; simp [plevel]
  | un u e => right; cases u <;> simp [plevel, UOp.level]
  | range a b =>
    rw [Sorted] at hs
    subst hs
    exact .inl (table_range o (.inr (compat_of ht rfl)))
  | bin o' x y =>
    have hc := compat_of ht (sorted_bin hs).2.2
    rcases parenR_bin hp with h | ⟨-, this⟩
    · exact .inl (table_right o o' hc h)
    · have ho : o = .plusplus := by cases o <;> first | rfl | exact absurd this (by decide)
      subst ho
      right
      have : ∀ o' ∈ allOps, compat Op.plusplus.argR o'.res = true → 11 ≤ o'.level := by decide +kernel
      exact this o' (mem_allOps o') hc

theorem sorted_un {Γ u e s} (hs : Sorted Γ (.un u e) s) : ∃ t, Sorted Γ e t ∧ t ≠ .set := by
  rw [Sorted.eq_def] at hs
  cases u <;> exact ⟨_, hs.1, by decide⟩

theorem right_ge {Γ} (e : E) {s} (hs : Sorted Γ e s) : ∀ p ∈ rightLevels e, min (plevel e) 11 ≤ p := by
  match e with
  | .int i =>
    intro p hp
    rw [rightLevels] at hp
    split at hp <;> simp at hp
    omega
  | .ref _ => intro p hp; simp [rightLevels] at hp
  | .call _ _ => intro p hp; simp [rightLevels] at hp
  | .range a b =>
    intro p hp
    rw [rightLevels] at hp
    have : p = 9 ∨ p = 11 := by
      split at hp <;> simp at hp <;> omega
    rw [plevel]; omega
  | .un u e =>
    intro p hp
    rw [rightLevels, List.mem_cons] at hp
    rcases hp with rfl | hp
    · rw [plevel]; omega
    · split at hp
      · simp at hp
      · have hu : parenU e = false := by simpa using ‹¬ (parenU e = true)›
        have ⟨t, he, ht⟩ := sorted_un hs
        have h2 := right_ge e he p hp
        have : 11 ≤ plevel e := by
          cases e with
          | bin => simp [parenU] at hu
          | un => simp [parenU] at hu
          | range => rw [Sorted] at he; exact absurd he ht
          | int i => rw [plevel]; split <;> omega
          | ref => simp [plevel]
          | call => simp [plevel]
        omega
  | .bin o l r =>
    intro p hp
    rw [rightLevels] at hp
    split at hp
    · simp at hp
    · rw [List.mem_cons] at hp
      rcases hp with rfl | hp
      · rw [plevel]; omega
      · split at hp
        · simp at hp
        · have hu : parenR o r = false := by simpa using ‹¬ (parenR o r = true)›
          obtain ⟨-, ⟨t, hr, ht⟩, -⟩ := sorted_bin hs
          have h2 := right_ge r hr p hp
          have := right_open hr ht hu
          rw [plevel]; omega

theorem left_ge {Γ} (e : E) {s} (hs : Sorted Γ e s) : ∀ p ∈ leftLevels e, plevel e ≤ p := by
  match e with
  | .int i => intro p hp; simp [leftLevels] at hp
  | .ref _ => intro p hp; simp [leftLevels] at hp
  | .call _ _ => intro p hp; simp [leftLevels] at hp
  | .un _ _ => intro p hp; simp [leftLevels] at hp
  | .range a b => intro p hp; simp [leftLevels] at hp; simp [plevel, hp]
  | .bin o l r =>
    intro p hp
    rw [leftLevels, List.mem_append] at hp
    rcases hp with hp | hp
    · split at hp <;> simp at hp
      rw [plevel, hp]
    · split at hp
      · simp at hp
      · have hu : parenL o l = false := by simpa using ‹¬ (parenL o l = true)›
        obtain ⟨⟨t, hl, ht⟩, -⟩ := sorted_bin hs
        have h2 := left_ge l hl p hp
        refine Nat.le_trans ?_ h2
        cases l with
        | int | ref | call | un => simp [leftLevels] at hp
        | range =>
          rw [Sorted] at hl
          subst hl
          have := table_range o (.inl (compat_of ht rfl))
          simp only [plevel]; omega
        | bin o' x y =>
          have hc := compat_of ht (sorted_bin hl).2.2
          simp only [plevel]
          rcases parenL_bin hu with h | ⟨h, h'⟩
          · exact (table_left o o' hc h).le
          · exact (table_same o o' hc h h').1.le

/-- The right operand meets a lower level. -/
theorem right_admits {Γ o r t} (hs : Sorted Γ r t) (ht : ∀ u, o.argR = some u → t = u) (hp : parenR o r = false)
    (ho : o ≠ .plusplus) : ∀ p ∈ leftLevels r, o.level < p := by
  intro p hp'
  have h1 := left_ge r hs p hp'
  refine Nat.lt_of_lt_of_le ?_ h1
  cases r with
  | int | ref | call | un => simp [leftLevels] at hp'
  | range => 
    rw [Sorted] at hs
    subst hs
    exact table_range o (.inr (compat_of ht rfl))
  | bin o' x y =>
    have hc := compat_of ht (sorted_bin hs).2.2
    rcases parenR_bin hp with h | ⟨-, this⟩
    · exact table_right o o' hc h
    · exact absurd (show o = .plusplus by cases o <;> first | rfl | exact absurd this (by decide)) ho

def Reduces (p : Nat) (o : Op) : Prop := o.level < p ∨ (p = o.level ∧ o.nonassoc = false)

/-- Everything in the left operand is reduced before the operator is shifted. -/
theorem left_reduces {Γ o l r s} (hs : Sorted Γ (.bin o l r) s) (hc : Clean (.bin o l r)) (hp : parenL o l = false) :
    ∀ p ∈ rightLevels l, Reduces p o := by
  intro p hp'
  obtain ⟨⟨t, hl, ht⟩, -⟩ := sorted_bin hs
  have h1 := right_ge l hl p hp'
  by_cases ho : o = .plusplus
  · subst ho
    have := ht _ rfl
    subst this
    cases l with
    | int => simp [Sorted] at hl
    | range => simp [Sorted] at hl
    | ref => simp [rightLevels] at hp'
    | call => simp [rightLevels] at hp'
    | un u => cases u <;> simp [Sorted, Fits] at hl
    | bin o' x y =>
      have hc := (sorted_bin hl).2.2
      have : o' = .plusplus := by cases o' <;> first | rfl | exact absurd hc (by decide)
      subst this
      exact absurd hp (by simp [parenL, E.prec, Op.prec, Op.assoc])
  by_cases hw : o = .pow
  · subst hw
    have := ht _ rfl
    subst this
    rw [Clean] at hc
    obtain ⟨hcl, -, -, h⟩ := hc
    obtain ⟨h2, h3, -⟩ := h rfl
    cases l with
    | int i =>
      simp only [E.signed, decide_eq_false_iff_not] at h2
      simp [rightLevels, h2] at hp'
    | range => simp [Sorted] at hl
    | ref => simp [rightLevels] at hp'
    | call => simp [rightLevels] at hp'
    | un u e =>
      cases u with
      | plus | minus => simp [E.signed] at h2
      | not =>
        rw [rightLevels, List.mem_cons] at hp'
        rcases hp' with rfl | hp'
        · left; decide
        · rw [Sorted] at hl
          split at hp'
          · simp at hp'
          · cases e with
            | bin | un => simp [parenU] at *
            | int => simp [Sorted] at hl
            | range => simp [Sorted] at hl
            | ref => simp [rightLevels] at hp'
            | call => simp [rightLevels] at hp'
    | bin o' x y =>
      have ho' : o' = .pow := by
        have hcl := (sorted_bin hl).2.2
        have hq : o'.prec ≤ 200 := by
          rcases parenL_bin hp with h | ⟨h, -⟩
          · exact h.le
          · exact h.le
        cases o' <;> first | rfl | exact absurd hq (by decide) | exact absurd hcl (by decide)
      subst ho'
      rw [E.powSigned] at h3
      rw [rightLevels] at hp'
      split at hp'
      · simp at hp'
      · rw [List.mem_cons] at hp'
        rcases hp' with rfl | hp'
        · right; decide
        · obtain ⟨-, ⟨t, hy, ht⟩, -⟩ := sorted_bin hl
          have := ht _ rfl
          subst this
          split at hp'
          · simp at hp'
          · rename_i hpr
            cases y with
            | int i =>
              simp only [E.signed, decide_eq_false_iff_not] at h3
              simp [rightLevels, h3] at hp'
            | range => simp [Sorted] at hy
            | ref => simp [rightLevels] at hp'
            | call => simp [rightLevels] at hp'
            | bin o' x' y' =>
              have hcy := (sorted_bin hy).2.2
              have hq : o'.prec < 200 := by
                rcases parenR_bin (by simpa using hpr) with h | ⟨-, h⟩
                · exact h
                · exact absurd h (by decide)
              cases o' <;> exact absurd hq (by decide)
            | un u e =>
              cases u with
              | plus | minus => simp [E.signed] at h3
              | not =>
                rw [rightLevels, List.mem_cons] at hp'
                rcases hp' with rfl | hp'
                · left; decide
                · rw [Sorted] at hy
                  split at hp'
                  · simp at hp'
                  · cases e with
                    | bin | un => simp [parenU] at *
                    | int => simp [Sorted] at hy
                    | range => simp [Sorted] at hy
                    | ref => simp [rightLevels] at hp'
                    | call => simp [rightLevels] at hp'
  have h11 := level_pow o ho hw
  have key : o.level < plevel l ∨ (plevel l = o.level ∧ o.nonassoc = false) := by
    cases l with
    | int i =>
      rw [rightLevels] at hp'
      split at hp'
      · rename_i hi
        rw [plevel, if_pos hi]
        rcases Nat.lt_or_ge o.level 11 with h | h
        · exact .inl h
        · exact .inr ⟨by omega, level_eleven o (by omega)⟩
      · simp at hp'
    | ref => simp [rightLevels] at hp'
    | call => simp [rightLevels] at hp'
    | un u e =>
      rw [plevel]
      rcases Nat.lt_or_ge o.level 11 with h | h
      · left; cases u <;> simp [UOp.level] <;> omega
      · have h3 := level_eleven o (by omega)
        have h4 : o.level = 11 := by omega
        rw [h4]
        cases u
        · left; decide
        · right; exact ⟨rfl, h3⟩
        · right; exact ⟨rfl, h3⟩
    | range =>
      rw [Sorted] at hl
      subst hl
      exact .inl (table_range o (.inl (compat_of ht rfl)))
    | bin o' x y =>
      have hc := compat_of ht (sorted_bin hl).2.2
      simp only [plevel]
      rcases parenL_bin hp with h | ⟨h, h'⟩
      · exact .inl (table_left o o' hc h)
      · have := table_same o o' hc h h'
        exact .inr ⟨this.1.symm, this.2⟩
  rw [Reduces]
  rcases key with h | ⟨h, h'⟩
  · rcases Nat.lt_or_ge o.level 11 with h2 | h2
    · left; omega
    · have := level_eleven o (by omega)
      by_cases p = o.level
      · right; exact ⟨by omega, this⟩
      · left; omega
  · by_cases p = o.level
    · right; exact ⟨by omega, h'⟩
    · left; omega

/-! ## The parser's moves -/

/-- The tokens after an expression reduce every rule of the given levels. -/
def Closes (lv : List Nat) : List Tok → Prop
  | [] => True
  | .rpar :: _ => True
  | .comma :: _ => True
  | .op o :: _ => ∀ p ∈ lv, Reduces p o
  | _ => False

theorem closes_rpar {lv ts} : Closes lv (.rpar :: ts) := trivial

theorem Closes.mono {a b : List Nat} {ts} (h : Closes a ts) (hs : ∀ p ∈ b, p ∈ a) : Closes b ts := by
  match ts, h with
  | [], _ => trivial
  | .rpar :: _, _ => trivial
  | .comma :: _, _ => trivial
  | .op o :: _, h => exact fun p hp => h p (hs p hp)

def Admits (S : List Frame) (p : Nat) : Prop :=
  match S with
  | [] => True
  | f :: _ => match f.level with
    | none => True
    | some q => q < p

theorem run_atom {S c e ts lv} (h : Closes lv ts) : run S (.atom c e) ts = run S (.done e) ts := by
  match ts, h with
  | [], _ => rfl
  | .rpar :: _, _ => rfl
  | .comma :: _, _ => rfl
  | .op o :: _, _ => rfl

theorem run_ident {S s ts lv} (h : Closes lv ts) : run S (.ident s) ts = run S (.done (.ref s)) ts := by
  match ts, h with
  | [], _ => rfl
  | .rpar :: _, _ => rfl
  | .comma :: _, _ => rfl
  | .op o :: _, _ => rfl

theorem run_op {S e o ts} : run S (.done e) (.op o :: ts) =
    (reduceOn o S e >>= fun r => run (.lhs r.2 o :: r.1) .need ts) := rfl

theorem reduceOn_admits {S o e} (h : Admits S o.level) : reduceOn o S e = .ok (S, e) := by
  cases S with
  | nil => rfl
  | cons f S =>
    rw [reduceOn]
    rw [Admits] at h
    cases hf : f.level with
    | none => rfl
    | some p =>
      rw [hf] at h
      simp only at h ⊢
      rw [if_neg (by omega), if_neg (by omega)]

theorem run_shift {S e o ts} (h : Admits S o.level) : run S (.done e) (.op o :: ts) = run (.lhs e o :: S) .need ts := by
  rw [run_op, reduceOn_admits h]; rfl

theorem reduceOn_step {f : Frame} {p e e' o S} (hl : f.level = some p) (hr : f.reduce e = .ok e') (h : Reduces p o) :
    reduceOn o (f :: S) e = reduceOn o S e' := by
  rw [reduceOn, hl]
  simp only
  rcases h with h | ⟨h, hn⟩
  · rw [if_pos h, hr]; rfl
  · rw [if_neg (by omega), if_pos h, hn, hr]; rfl

theorem reduceAll_step {f : Frame} {p e e' S} (hl : f.level = some p) (hr : f.reduce e = .ok e') :
    reduceAll (f :: S) e = reduceAll S e' := by
  rw [reduceAll, hl]
  simp only
  rw [hr]; rfl

/-- A completed rule is reduced. -/
theorem close_frame {f : Frame} {p e e' S ts} (hl : f.level = some p) (hr : f.reduce e = .ok e')
    (h : Closes [p] ts) : run (f :: S) (.done e) ts = run S (.done e') ts := by
  match ts, h with
  | [], _ =>
    show (reduceAll (f :: S) e >>= _) = (reduceAll S e' >>= _)
    rw [reduceAll_step hl hr]
  | .rpar :: _, _ =>
    show (reduceAll (f :: S) e >>= _) = (reduceAll S e' >>= _)
    rw [reduceAll_step hl hr]
  | .comma :: _, _ =>
    show (reduceAll (f :: S) e >>= _) = (reduceAll S e' >>= _)
    rw [reduceAll_step hl hr]
  | .op o :: _, h =>
    rw [run_op, run_op, reduceOn_step hl hr (h p (by simp))]

theorem run_paren {S e ts} : run (.paren :: S) (.done e) (.rpar :: ts) = run S (.atom false e) ts := rfl

/-! ## Literals -/

theorem mkUn_minus {i : Int} (h : inLL i) (hi : i ≠ LMIN) : mkUn .minus (.int i) = .ok (.int (-i)) := by
  rw [mkUn, C01_neg h, if_pos (by rw [inLL_iff] at *; simp only [LMIN] at hi; omega)]
  rfl

theorem run_int {S : List Frame} {i : Int} {ts} (hi : inLL i) (h : Closes (rightLevels (.int i)) ts) :
    run S .need (intToks i ++ ts) = run S (.done (.int i)) ts := by
  rw [inLL_iff] at hi
  rw [intToks, rightLevels] at *
  split at h
  · rename_i hn
    rw [if_pos hn]
    show run (.pre .minus :: S) .need (natTok i.natAbs :: ts) = _
    rw [natTok]
    split
    · rename_i h2
      have : i = -9223372036854775807 - 1 := by omega
      subst this
      rfl
    · show run (.pre .minus :: S) (.atom false (.int (i.natAbs : Int))) ts = _
      rw [run_atom h]
      refine close_frame rfl ?_ h
      have := mkUn_minus (i := (i.natAbs : Int)) (by rw [inLL_iff]; omega) (by simp only [LMIN]; omega)
      rw [Frame.reduce, this]
      congr 2; omega
  · rename_i hn
    rw [if_neg hn]
    show run S .need (natTok i.natAbs :: ts) = _
    rw [natTok, if_neg (by omega)]
    show run S (.atom false (.int (i.natAbs : Int))) ts = _
    rw [run_atom h]
    congr 3; omega

theorem cat_some_bin (L x) : cat (some L) x = .bin .plusplus L x := rfl

theorem normA_some {L : E} {i} (e : E) : normA (some L) e ≠ .int i := by
  match e with
  | .int _ => simp [normA, cat]
  | .ref _ => simp [normA, cat]
  | .range _ _ => simp [normA, cat]
  | .call _ _ => simp [normA, cat]
  | .un _ _ => simp [normA, cat]
  | .bin o l r =>
    rw [normA]
    split
    · exact normA_some r
    · simp [cat]

theorem norm_int {e : E} {i} : norm e = .int i ↔ e.literal = some i := by
  match e with
  | .int j => simp [norm, normA, cat, E.literal]
  | .ref _ => simp [norm, normA, cat, E.literal]
  | .range _ _ => simp [norm, normA, cat, E.literal]
  | .call _ _ => simp [norm, normA, cat, E.literal]
  | .bin o l r =>
    rw [norm, normA]
    split
    · exact ⟨fun h => absurd h (normA_some r), fun h => by simp [E.literal] at h⟩
    · rw [cat]
      unfold mkBin
      split <;> simp [E.literal]
  | .un u e =>
    have ih := fun j => norm_int (e := e) (i := j)
    rw [norm, normA, cat]
    cases u with
    | not =>
      have : signFold .not (normA none e) = .un .not (normA none e) := by cases normA none e <;> rfl
      rw [this]
      simp [E.literal]
    | plus =>
      rw [E.literal, ← ih i, norm]
      cases normA none e <;> simp [signFold]
    | minus =>
      rw [E.literal, Option.map_eq_some_iff]
      constructor
      · intro h
        cases hn : normA none e with
        | int j =>
          rw [hn, signFold] at h
          exact ⟨j, (ih j).1 hn, by simpa using h⟩
        | _ => rw [hn] at h; simp [signFold] at h
      · rintro ⟨j, hj, rfl⟩
        have := (ih j).2 hj
        rw [norm] at this
        rw [this, signFold]

theorem literal_range (e : E) (h : Clean e) {i} (hi : e.literal = some i) : inLL i := by
  match e with
  | .int j => simp only [E.literal, Option.some.injEq] at hi; subst hi; exact h
  | .ref _ => simp [E.literal] at hi
  | .range _ _ => simp [E.literal] at hi
  | .call _ _ => simp [E.literal] at hi
  | .bin _ _ _ => simp [E.literal] at hi
  | .un .not _ => simp [E.literal] at hi
  | .un .plus e => rw [Clean] at h; rw [E.literal] at hi; exact literal_range e h.1 hi
  | .un .minus e =>
    rw [Clean] at h
    rw [E.literal, Option.map_eq_some_iff] at hi
    obtain ⟨j, hj, rfl⟩ := hi
    have h1 := literal_range e h.1 hj
    have h2 : j ≠ LMIN := fun hh => h.2 ⟨rfl, by rw [hj, hh]⟩
    rw [inLL_iff] at *
    simp only [LMIN] at h2
    omega

theorem mkUn_norm {u e} (h : Clean (.un u e)) : mkUn u (norm e) = .ok (signFold u (norm e)) := by
  cases u with
  | not => cases norm e <;> rfl
  | plus => cases norm e <;> rfl
  | minus =>
    cases hn : norm e with
    | int j =>
      rw [Clean] at h
      have hl := norm_int.1 hn
      have hr := literal_range e h.1 hl
      exact mkUn_minus hr (fun hh => h.2 ⟨rfl, by rw [hl, hh]⟩)
    | _ => rfl

/-- Parentheses. -/
theorem run_wrap {b : Bool} {t : List Tok} {e' : E} {rl ll : List Nat}
    (h : ∀ S ts, (∀ p ∈ ll, Admits S p) → Closes rl ts → run S .need (t ++ ts) = run S (.done e') ts)
    {S ts} (h1 : b = false → ∀ p ∈ ll, Admits S p) (h2 : Closes (if b then [] else rl) ts) :
    run S .need (wrapT b t ++ ts) = run S (.done e') ts := by
  cases b with
  | false => exact h S ts (h1 rfl) h2
  | true =>
    show run (.paren :: S) .need ((t ++ [.rpar]) ++ ts) = _
    erw [List.append_assoc, h (.paren :: S) (Tok.rpar :: ts) (fun _ _ => by rw [Admits]; trivial) closes_rpar]
    show run S (.atom false e') ts = _
    rw [run_atom h2]

/-! ## Whole expressions -/

theorem norm_un (u e) : norm (.un u e) = signFold u (norm e) := by simp [norm, normA, cat]

theorem norm_bin {o} (h : o ≠ .plusplus) (l r) : norm (.bin o l r) = mkBin o (norm l) (norm r) := by
  simp [norm, normA, cat, h]

theorem norm_cat (l r) : norm (.bin .plusplus l r) = normA (some (norm l)) r := by
  simp [norm, normA, cat]

theorem normA_cat (L l r) : normA (some L) (.bin .plusplus l r) = normA (some (cat (some L) (norm l))) r := by
  simp [norm, normA]

theorem ofList_toList (a : Es) : Es.ofList a.toList = a := by
  match a with
  | .nil => rfl
  | .cons e r => rw [Es.toList, Es.ofList, ofList_toList r]

theorem Lexes.lexN {ts inp} (h : Lexes ts inp []) {n : Nat} (hn : ts.length ≤ n) : lexN n inp = ts := by
  generalize hr : ([] : List Char) = rest at h
  induction h generalizing n with
  | nil r =>
    subst hr
    cases n <;> rfl
  | cons h1 _ ih =>
    cases n with
    | zero => simp at hn
    | succ n =>
      rw [Syn.lexN, h1]
      simp only
      rw [ih (by simpa using hn) hr]

theorem toDigits_ne (n : Nat) : 0 < (Nat.toDigits 10 n).length := by
  rw [List.length_pos_iff]
  exact Nat.toDigits_ne_nil

theorem intToks_len (i : Int) : (intToks i).length ≤ (intText i).length := by
  have := toDigits_ne i.natAbs
  rw [intToks, intText]
  split <;> simp <;> omega

theorem wrapT_len {b t l} (h : (t : List Tok).length ≤ (l : List Char).length) : (wrapT b t).length ≤ (wrap b l).length := by
  cases b <;> simp [wrapT, wrap] <;> omega

theorem quoteId_len {s : List Char} (h : Name s) : 1 ≤ (Lex.quoteId s).length := by
  obtain ⟨c, x, e, -⟩ := quoteId_start h
  rw [e]; simp

theorem text_len (o : Op) : 1 ≤ o.text.length := by cases o <;> decide

theorem utext_len (u : UOp) : 1 ≤ u.text.length := by cases u <;> decide

mutual
theorem toks_len (e : E) (h : Clean e) : (toks e).length ≤ (print e).length := by
  match e, h with
  | .int i, _ => rw [toks, print]; exact intToks_len i
  | .ref s, h => rw [toks, print]; exact quoteId_len h
  | .range a b, h =>
    rw [Clean] at h
    rw [toks, print, if_neg (by omega)]
    have h1 := intToks_len a
    have h2 := intToks_len b
    have h3 : "..".toList.length = 2 := rfl
    simp only [List.length_append, List.length_cons, h3]
    omega
  | .call f args, h =>
    rw [Clean] at h
    have h1 := quoteId_len h.1
    have h2 := args_len args h.2 true
    rw [toks, print]
    simp only [List.length_append, List.length_cons, List.length_nil]
    omega
  | .un u e, h =>
    rw [Clean] at h
    have h1 := wrapT_len (b := parenU e) (toks_len e h.1)
    have h2 := utext_len u
    rw [toks, print]
    simp only [List.length_append, List.length_cons]
    omega
  | .bin o l r, h =>
    rw [Clean] at h
    have h1 := wrapT_len (b := parenL o l) (toks_len l h.1)
    have h2 := wrapT_len (b := parenR o r) (toks_len r h.2.1)
    have h3 := text_len o
    rw [toks, print]
    split
    · simp only [List.length_append, List.length_cons, List.length_nil]
      omega
    · simp only [List.length_append, List.length_cons]
      omega

theorem args_len (args : Es) (h : CleanL args) (first : Bool) :
    (toksArgs first args).length ≤ (printArgs first args).length := by
  match args, h with
  | .nil, _ => simp [toksArgs, printArgs]
  | .cons e r, h =>
    rw [CleanL] at h
    have h1 := toks_len e h.1
    have h2 := args_len r h.2 false
    rw [toksArgs, printArgs]
    cases first <;> simp only [List.length_append, List.length_cons, List.length_nil, if_true, Bool.false_eq_true, if_false] <;> omega
end

/-- The printed text is read as the tokens of the expression. -/
theorem lex_print (e : E) (h : Clean e) : lex (print e) = toks e := by
  have h1 := lexes_expr e h [] [] [] (fun c hc => by simp at hc) (.nil [])
  rw [List.append_nil, List.append_nil] at h1
  exact h1.lexN (toks_len e h)

theorem lex_minus1 {r : E} (hr : Clean r) (h : print r = ['-', '1']) : toks r = [.op .minus, .int 1] := by
  rw [← lex_print r hr, h]
  decide +kernel

theorem admits_lhs {o : Op} {e S p} (h : o.level < p) : Admits (.lhs e o :: S) p := h

/-- What is proved of an expression. -/
def Parses (e : E) : Prop :=
  ∀ S ts, (∀ p ∈ leftLevels e, Admits S p) → Closes (rightLevels e) ts →
    run S .need (toks e ++ ts) = run S (.done (norm e)) ts

/-- A concatenation chain to the right of `L ++`. -/
def ParsesCat (e : E) : Prop :=
  ∀ L S ts, Admits S 14 → Closes (rightLevels e) ts →
    run (.lhs L .plusplus :: S) .need (toks e ++ ts) = run S (.done (normA (some L) e)) ts

theorem cat_of_parses {e : E} (h : Parses e) (hl : leftLevels e = []) (hr : rightLevels e = [])
    (hn : ∀ L, normA (some L) e = cat (some L) (norm e)) : ParsesCat e := by
  intro L S ts _ hc
  rw [h _ ts (by rw [hl]; simp) hc, hn]
  refine close_frame (p := 14) rfl rfl ?_
  rw [hr] at hc
  match ts, hc with
  | [], _ => trivial
  | .rpar :: _, _ => trivial
  | .comma :: _, _ => trivial
  | .op o :: _, _ =>
    intro p hp
    rw [List.mem_singleton] at hp
    subst hp
    rw [Reduces]
    cases o <;> decide

theorem parses_un {u e} (hc : Clean (.un u e)) (hl : parenU e = false → leftLevels e = []) (ih : Parses e) :
    Parses (.un u e) := by
  intro S ts _ h2
  have h1 : run S .need (toks (.un u e) ++ ts) = run (.pre u :: S) .need (wrapT (parenU e) (toks e) ++ ts) := by
    rw [toks]
    cases u <;> rfl
  rw [h1, run_wrap ih]
  · rw [norm_un]
    refine close_frame (p := u.level) rfl (mkUn_norm hc) (h2.mono ?_)
    intro p hp
    rw [rightLevels]
    simp only [List.mem_singleton] at hp
    simp [hp]
  · intro hb
    rw [hl hb]
    simp
  · refine h2.mono ?_
    intro p hp
    rw [rightLevels]
    exact List.mem_cons_of_mem _ hp

theorem rightLevels_bin {o l r} (h : ¬ (o = .pow ∧ print r = ['-', '1'])) :
    rightLevels (.bin o l r) = o.level :: (if parenR o r then [] else rightLevels r) := by
  rw [rightLevels]
  split
  · exact absurd ‹_› h
  · rfl

theorem leftLevels_bin {o l r} (h : ¬ (o = .pow ∧ print r = ['-', '1'])) :
    leftLevels (.bin o l r) = o.level :: (if parenL o l then [] else leftLevels l) := by
  rw [leftLevels]
  split
  · exact absurd ‹_› h
  · rfl

theorem closes_op {lv o ts} (h : ∀ p ∈ lv, Reduces p o) : Closes lv (.op o :: ts) := h

theorem run_left {o l r Γ s} (hs : Sorted Γ (.bin o l r) s) (hc : Clean (.bin o l r)) (ih : Parses l) {S ts}
    (h1 : ∀ p ∈ leftLevels (.bin o l r), Admits S p) :
    run S .need (wrapT (parenL o l) (toks l) ++ .op o :: ts) = run S (.done (norm l)) (.op o :: ts) := by
  refine run_wrap ih ?_ ?_
  · intro hb p hp
    refine h1 p ?_
    rw [leftLevels, hb]
    exact List.mem_append_right _ hp
  · refine closes_op ?_
    intro p hp
    split at hp
    · simp at hp
    · exact left_reduces hs hc (by simpa using ‹¬ (parenL o l = true)›) p hp

theorem parses_bin {o l r Γ s} (hs : Sorted Γ (.bin o l r) s) (hc : Clean (.bin o l r)) (ho : o ≠ .plusplus)
    (hm : ¬ (o = .pow ∧ print r = ['-', '1'])) (ihl : Parses l) (ihr : Parses r) : Parses (.bin o l r) := by
  intro S ts h1 h2
  rw [toks_bin hm, List.append_assoc, List.cons_append, run_left hs hc ihl h1]
  have h0 : Admits S o.level := h1 _ (by rw [leftLevels_bin hm]; simp)
  rw [run_shift h0]
  rw [rightLevels_bin hm] at h2
  obtain ⟨-, ⟨t, hr, ht⟩, -⟩ := sorted_bin hs
  rw [run_wrap ihr]
  · rw [norm_bin ho]
    exact close_frame (p := o.level) rfl rfl (h2.mono (by simp))
  · intro hb p hp
    exact admits_lhs (right_admits hr ht hb ho p hp)
  · exact h2.mono (fun p hp => List.mem_cons_of_mem _ hp)

theorem parses_powm1 {l r Γ s} (hs : Sorted Γ (.bin .pow l r) s) (hc : Clean (.bin .pow l r))
    (hm : print r = ['-', '1']) (ihl : Parses l) (ihr : Parses r) : Parses (.bin .pow l r) := by
  intro S ts h1 h2
  rw [toks_powm1 ⟨rfl, hm⟩, List.append_assoc]
  rw [Clean] at hc
  obtain ⟨hcl, hcr, -, hp⟩ := hc
  obtain ⟨hsg, -, hb⟩ := hp rfl
  have hbase := (hb (parenR_minus1 hcr hm) (by rw [hm])).2
  have hn : norm r = .int (-1) := by
    have h := ihr [] [] (fun p _ => by rw [Admits]; trivial) trivial
    rw [lex_minus1 hcr hm] at h
    have h3 : run [] .need ([Tok.op .minus, .int 1] ++ []) = .ok (.int (-1)) := rfl
    rw [h3] at h
    have h4 : run [] (.done (norm r)) [] = .ok (norm r) := rfl
    rw [h4] at h
    exact (Res.ok.inj h).symm
  rw [norm_bin (by decide), hn]
  show _ = run S (.done (.bin .pow (norm l) (.int (-1)))) ts
  have hpar : parenL .pow l = true → run S .need (wrapT (parenL .pow l) (toks l) ++ ([.powm1] ++ ts)) =
      run S (.done (.bin .pow (norm l) (.int (-1)))) ts := by
    intro hb
    rw [hb]
    show run (.paren :: S) .need ((toks l ++ [.rpar]) ++ ([.powm1] ++ ts)) = _
    erw [List.append_assoc, ihl (.paren :: S) (Tok.rpar :: Tok.powm1 :: ts) (fun _ _ => by rw [Admits]; trivial) closes_rpar]
    rfl
  cases l with
  | int i =>
    simp only [E.base, decide_eq_true_eq] at hbase
    have : parenL .pow (.int i) = false := rfl
    rw [this, wrapT]
    rw [Clean, inLL_iff] at hcl
    have h5 : toks (.int i) = [.int (i.natAbs : Int)] := by
      rw [toks, intToks, natTok]
      have : ¬ i < 0 := by omega
      have : i.natAbs ≠ 9223372036854775808 := by omega
      simp [*]
    rw [if_neg (by decide), h5]
    show run S (.done (.bin .pow (.int (i.natAbs : Int)) (.int (-1)))) ts = _
    rw [norm, normA, cat]
    congr 4; omega
  | ref s => rfl
  | range => exact hpar hbase
  | call => exact hpar hbase
  | bin => exact hpar hbase
  | un => exact hpar hbase

theorem parses_cat {l r Γ s} (hs : Sorted Γ (.bin .plusplus l r) s) (hc : Clean (.bin .plusplus l r))
    (hr : parenR .plusplus r = false) (ihl : Parses l) (ihr : ParsesCat r) : Parses (.bin .plusplus l r) := by
  intro S ts h1 h2
  have hm : ¬ (Op.plusplus = .pow ∧ print r = ['-', '1']) := fun h => absurd h.1 (by decide)
  rw [toks_bin hm, List.append_assoc, List.cons_append, run_left hs hc ihl h1]
  have h0 : Admits S Op.plusplus.level := h1 _ (by rw [leftLevels_bin hm]; simp)
  rw [run_shift h0, hr, wrapT, norm_cat]
  rw [rightLevels_bin hm, hr] at h2
  exact ihr _ S ts h0 (h2.mono (fun p hp => List.mem_cons_of_mem _ hp))

theorem parsesCat_cat {l r Γ s} (hs : Sorted Γ (.bin .plusplus l r) s) (hc : Clean (.bin .plusplus l r))
    (hr : parenR .plusplus r = false) (hl : parenL .plusplus l = false → leftLevels l = [])
    (ihl : Parses l) (ihr : ParsesCat r) : ParsesCat (.bin .plusplus l r) := by
  intro L S ts h0 h2
  have hm : ¬ (Op.plusplus = .pow ∧ print r = ['-', '1']) := fun h => absurd h.1 (by decide)
  rw [toks_bin hm, List.append_assoc, List.cons_append]
  have e1 : run (.lhs L .plusplus :: S) .need
      (wrapT (parenL .plusplus l) (toks l) ++ .op .plusplus :: (wrapT (parenR .plusplus r) (toks r) ++ ts)) =
      run (.lhs L .plusplus :: S) (.done (norm l)) (.op .plusplus :: (wrapT (parenR .plusplus r) (toks r) ++ ts)) := by
    refine run_wrap ihl (fun hb => by rw [hl hb]; simp) (closes_op ?_)
    intro p hp
    split at hp
    · simp at hp
    · exact left_reduces hs hc (by simpa using ‹¬ (parenL .plusplus l = true)›) p hp
  rw [e1, close_frame (p := 14) rfl rfl (closes_op (by intro p hp; rw [List.mem_singleton] at hp; subst hp; right; decide)),
    run_shift h0, hr, wrapT, normA_cat]
  rw [rightLevels_bin hm, hr] at h2
  exact ihr _ S ts h0 (h2.mono (fun p hp => List.mem_cons_of_mem _ hp))

theorem parses_range {a b} (hc : Clean (.range a b)) : Parses (.range a b) := by
  intro S ts h1 h2
  rw [Clean] at hc
  rw [toks, List.append_assoc, List.cons_append, run_int hc.1, run_shift, run_int hc.2.1]
  · refine close_frame (p := 9) rfl rfl (h2.mono ?_)
    simp [rightLevels]
  · refine h2.mono ?_
    simp only [rightLevels]
    intro p hp
    exact List.mem_cons_of_mem _ hp
  · exact h1 9 (by simp [leftLevels])
  · refine closes_op ?_
    intro p hp
    rw [rightLevels] at hp
    split at hp <;> simp at hp
    subst hp
    left; decide

/-- Operands of `++`. -/
theorem cat_operand {Γ e} (hs : Sorted Γ e .other) :
    (∃ s, e = .ref s) ∨ (∃ f a, e = .call f a) ∨ (∃ l r, e = .bin .plusplus l r) := by
  cases e with
  | int => simp [Sorted] at hs
  | range => simp [Sorted] at hs
  | ref => exact .inl ⟨_, rfl⟩
  | call => exact .inr (.inl ⟨_, _, rfl⟩)
  | un u => cases u <;> simp [Sorted, Fits] at hs
  | bin o x y =>
    have hc := (sorted_bin hs).2.2
    have : o = .plusplus := by cases o <;> first | rfl | exact absurd hc (by decide)
    subst this
    exact .inr (.inr ⟨_, _, rfl⟩)

theorem cat_parenR {Γ e} (hs : Sorted Γ e .other) : parenR .plusplus e = false := by
  rcases cat_operand hs with ⟨s, rfl⟩ | ⟨f, a, rfl⟩ | ⟨l, r, rfl⟩ <;> rfl

theorem cat_left {Γ e} (hs : Sorted Γ e .other) (h : parenL .plusplus e = false) : leftLevels e = [] := by
  rcases cat_operand hs with ⟨s, rfl⟩ | ⟨f, a, rfl⟩ | ⟨l, r, rfl⟩
  · rfl
  · rfl
  · exact absurd h (by simp [parenL, E.prec, Op.prec, Op.assoc])

theorem un_left {Γ u e s} (hs : Sorted Γ (.un u e) s) (h : parenU e = false) : leftLevels e = [] := by
  obtain ⟨t, he, ht⟩ := sorted_un hs
  cases e with
  | range => rw [Sorted] at he; exact absurd he ht
  | bin => simp [parenU] at h
  | _ => rfl

/-- The arguments that remain after one has been read. -/
theorem run_args_tail (f : List Char) (r : Es) (S : List Frame) (d : List E) (e' : E) (ts : List Tok)
    (ih : ∀ e ∈ r.toList, Parses e) :
    run (.args f d :: S) (.done e') (toksArgs false r ++ .rpar :: ts) =
      run S (.atom true (.call f (.ofList (d ++ e' :: (normL r).toList)))) ts := by
  match r with
  | .nil => rfl
  | .cons e r =>
    rw [toksArgs]
    show run (.args f (d ++ [e']) :: S) .need ((toks e ++ toksArgs false r) ++ .rpar :: ts) = _
    have hcl : Closes (rightLevels e) (toksArgs false r ++ .rpar :: ts) := by
      cases r with
      | nil => trivial
      | cons => trivial
    rw [List.append_assoc, ih e (by simp [Es.toList]) _ _ (fun _ _ => by rw [Admits]; trivial) hcl,
      run_args_tail f r S _ _ ts (fun x hx => ih x (by simp [Es.toList, hx]))]
    simp [normL, Es.toList]

theorem parses_call {f args} (ih : ∀ e ∈ args.toList, Parses e) : Parses (.call f args) := by
  intro S ts _ h2
  rw [toks]
  show run (.args f [] :: S) .need ((toksArgs true args ++ [.rpar]) ++ ts) = _
  rw [List.append_assoc, ← run_atom (c := true) h2, norm, normA, cat]
  cases args with
  | nil => rfl
  | cons e r =>
    rw [toksArgs]
    show run (.args f [] :: S) .need ((toks e ++ toksArgs false r) ++ .rpar :: ts) = _
    have hcl : Closes (rightLevels e) (toksArgs false r ++ .rpar :: ts) := by
      cases r with
      | nil => trivial
      | cons => trivial
    rw [List.append_assoc, ih e (by simp [Es.toList]) _ _ (fun _ _ => by rw [Admits]; trivial) hcl,
      run_args_tail f r S _ _ ts (fun x hx => ih x (by simp [Es.toList, hx]))]
    rw [List.nil_append, normL, Es.ofList, ofList_toList]

mutual
theorem parse_expr {Γ} (e : E) {s} (hs : Sorted Γ e s) (hc : Clean e) : Parses e := by
  match e with
  | .int i =>
    intro S ts _ h2
    rw [toks]
    exact run_int hc h2
  | .ref x =>
    intro S ts _ h2
    show run S (.ident x) ts = _
    rw [run_ident h2]; rfl
  | .range a b => exact parses_range hc
  | .call f args =>
    rw [Sorted] at hs
    rw [Clean] at hc
    exact parses_call (parse_args args hs.2 hc.2)
  | .un u e =>
    have ⟨t, he, _⟩ := sorted_un hs
    exact parses_un hc (un_left hs) (parse_expr e he (by rw [Clean] at hc; exact hc.1))
  | .bin o l r =>
    have ⟨⟨t, hl, htl⟩, ⟨t', hr, htr⟩, _⟩ := sorted_bin hs
    have hcl : Clean l := by rw [Clean] at hc; exact hc.1
    have hcr : Clean r := by rw [Clean] at hc; exact hc.2.1
    by_cases ho : o = .plusplus
    · subst ho
      have hr : Sorted Γ r .other := htr _ rfl ▸ hr
      exact parses_cat hs hc (cat_parenR hr) (parse_expr l hl hcl) (parse_cat r hr hcr)
    · by_cases hm : o = .pow ∧ print r = ['-', '1']
      · obtain ⟨rfl, hm⟩ := hm
        exact parses_powm1 hs hc hm (parse_expr l hl hcl) (parse_expr r hr hcr)
      · exact parses_bin hs hc ho hm (parse_expr l hl hcl) (parse_expr r hr hcr)

theorem parse_cat {Γ} (e : E) (hs : Sorted Γ e .other) (hc : Clean e) : ParsesCat e := by
  match e with
  | .ref x =>
    refine cat_of_parses ?_ rfl rfl (fun L => rfl)
    intro S ts _ h2
    show run S (.ident x) ts = _
    rw [run_ident h2]; rfl
  | .call f args =>
    rw [Sorted] at hs
    rw [Clean] at hc
    exact cat_of_parses (parses_call (parse_args args hs.2 hc.2)) rfl rfl (fun L => rfl)
  | .bin o l r =>
    have ⟨⟨t, hl, htl⟩, ⟨t', hr, htr⟩, _⟩ := sorted_bin hs
    have hcl : Clean l := by rw [Clean] at hc; exact hc.1
    have hcr : Clean r := by rw [Clean] at hc; exact hc.2.1
    have ho : o = .plusplus := by
      rcases cat_operand hs with ⟨s, h⟩ | ⟨f, a, h⟩ | ⟨l', r', h⟩ <;> injection h
    subst ho
    have hr : Sorted Γ r .other := htr _ rfl ▸ hr
    have hl' : Sorted Γ l .other := htl _ rfl ▸ hl
    exact parsesCat_cat hs hc (cat_parenR hr) (cat_left hl') (parse_expr l hl hcl) (parse_cat r hr hcr)
  | .int _ => exact absurd hs (by simp [Sorted])
  | .range _ _ => exact absurd hs (by simp [Sorted])
  | .un u _ => exact absurd hs (by cases u <;> simp [Sorted, Fits])

theorem parse_args {Γ} (args : Es) (hs : SortedL Γ args) (hc : CleanL args) : ∀ e ∈ args.toList, Parses e := by
  match args with
  | .nil => intro e he; simp [Es.toList] at he
  | .cons x r =>
    intro e he
    rw [SortedL] at hs
    rw [CleanL] at hc
    obtain ⟨⟨t, hx⟩, hs⟩ := hs
    rw [Es.toList, List.mem_cons] at he
    rcases he with he | he
    · rw [he]; exact parse_expr x hx hc.1
    · exact parse_args r hs hc.2 e he
end

theorem parse_print {Γ e s} (hs : Sorted Γ e s) (hc : Clean e) : parse (lex (print e)) = .ok (norm e) := by
  rw [lex_print e hc, parse]
  have := parse_expr e hs hc [] [] (fun _ _ => by rw [Admits]; trivial) trivial
  rw [List.append_nil] at this
  rw [this]; rfl

end Syn
end MZ
