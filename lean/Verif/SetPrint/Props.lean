import Verif.SetPrint.Model
import Verif.Ranges.Props
/-!
# C09: printed integer sets denote the same set
-/
namespace MZ
open SetPrint

/-! ## Specification: MiniZinc set notation

The fragment of MiniZinc's expression syntax in which sets are printed, its textual form, and
the set each expression denotes. -/

/-- A number as written in the language: an integer literal or (minus) infinity. -/
inductive Num | int (v : Int) | inf | negInf

/-- Set expressions: `a..b`, `{e1,…,en}` and `s union t`. -/
inductive SetExpr
  | range (a b : Num)
  | literal (l : List Int)
  | union (s t : SetExpr)

namespace SetExpr

def numText : Num → String
  | .int v => toString v
  | .inf => "infinity"
  | .negInf => "-infinity"

/-- concrete syntax -/
def text : SetExpr → String
  | range a b => numText a ++ ".." ++ numText b
  | literal l => "{" ++ String.intercalate "," (l.map toString) ++ "}"
  | union s t => text s ++ " union " ++ text t

def numLe (x : Int) : Num → Prop
  | .int v => x ≤ v
  | .inf => True
  | .negInf => False

def numGe (x : Int) : Num → Prop
  | .int v => v ≤ x
  | .inf => False
  | .negInf => True

/-- the set of integers denoted -/
def denotes (x : Int) : SetExpr → Prop
  | range a b => numGe x a ∧ numLe x b
  | literal l => x ∈ l
  | union s t => denotes x s ∨ denotes x t

end SetExpr

/-! ## helper lemmas -/

def numOf : Ext → Num
  | .negInf => .negInf
  | .posInf => .inf
  | .fin v => .int v

theorem numText_numOf (e : Ext) : SetExpr.numText (numOf e) = showExt e := by cases e <;> rfl

def rangeExpr (r : Range) : SetExpr := .range (numOf r.lo) (numOf r.hi)

theorem rangeExpr_text (r : Range) : (rangeExpr r).text = showRange r := by
  simp [rangeExpr, SetExpr.text, showRange, numText_numOf]

theorem rangeExpr_denotes (r : Range) (x : Int) : (rangeExpr r).denotes x ↔ r.Mem x := by
  unfold rangeExpr SetExpr.denotes Range.Mem
  cases r.lo <;> cases r.hi <;> simp [numOf, SetExpr.numGe, SetExpr.numLe]

theorem elems_spec (i mx : Int) (h : mx < LMAX) :
    ∃ l, elems i mx = .ok l ∧ ∀ x, x ∈ l ↔ (i ≤ x ∧ x ≤ mx) := by
  fun_induction elems i mx with
  | case1 => omega
  | case2 i h1 h2 ih =>
    obtain ⟨l, e1, e2⟩ := ih
    refine ⟨i :: l, by rw [e1]; rfl, fun x => ?_⟩
    rw [List.mem_cons, e2]; omega
  | case3 i h1 => exact ⟨[], rfl, fun x => by simp; omega⟩

/-- both ends finite -/
def Bounded2 (r : Range) : Prop := isFin r.lo = true ∧ isFin r.hi = true

theorem allElems_spec : ∀ (s : List Range), (∀ r ∈ s, isFin r.hi = true → r.hi < .fin LMAX) →
    ∃ l, allElems s = .ok l ∧ ∀ x, x ∈ l ↔ ∃ r ∈ s, Bounded2 r ∧ r.Mem x
  | [], _ => ⟨[], rfl, by simp⟩
  | r :: s, h => by
    obtain ⟨m, e1, e2⟩ := allElems_spec s (fun q hq => h q (by simp [hq]))
    have h0 := h r (by simp)
    obtain ⟨lo, hi⟩ := r
    have other : allElems (⟨lo, hi⟩ :: s) = allElems s → ¬ Bounded2 ⟨lo, hi⟩ →
        ∃ l, allElems (⟨lo, hi⟩ :: s) = .ok l ∧
          ∀ x, x ∈ l ↔ ∃ r ∈ (⟨lo, hi⟩ :: s : List Range), Bounded2 r ∧ r.Mem x := by
      intro h1 h2
      refine ⟨m, by rw [h1, e1], fun x => ?_⟩
      rw [e2]; simp only [List.mem_cons, exists_eq_or_imp]
      tauto
    cases lo with
    | negInf => exact other (by cases hi <;> rfl) (by simp [Bounded2, isFin])
    | posInf => exact other (by cases hi <;> rfl) (by simp [Bounded2, isFin])
    | fin a =>
      cases hi with
      | negInf => exact other rfl (by simp [Bounded2, isFin])
      | posInf => exact other rfl (by simp [Bounded2, isFin])
      | fin b =>
        obtain ⟨l, f1, f2⟩ := elems_spec a b (by simpa [isFin] using h0)
        refine ⟨l ++ m, ?_, fun x => ?_⟩
        · simp only [allElems, f1, e1]; rfl
        · rw [List.mem_append, f2, e2]
          simp [Bounded2, isFin, Range.Mem]

theorem notFin {e : Ext} : ¬ isFin e = true ↔ (e = .negInf ∨ e = .posInf) := by
  cases e <;> simp [isFin]

/-- Printing any integer set in normal form none of whose ranges ends at the largest 64-bit
integer produces the text of a set expression denoting exactly that set. -/
theorem C09_print_partial (s : List Range) (hs : Normal s)
    (hmax : ∀ r ∈ s, isFin r.hi = true → r.hi < .fin LMAX) :
    ∃ e : SetExpr, print s = .ok e.text ∧ ∀ x, e.denotes x ↔ Mem x s := by
  match s, hs, hmax with
  | [], _, _ =>
    refine ⟨.range (.int 1) (.int 0), rfl, fun x => ?_⟩
    simp [SetExpr.denotes, SetExpr.numGe, SetExpr.numLe, Mem]; omega
  | [r], _, _ =>
    refine ⟨rangeExpr r, by rw [rangeExpr_text]; rfl, fun x => ?_⟩
    rw [rangeExpr_denotes]; simp [Mem]
  | r :: r2 :: t, hs, hmax =>
    have hnf := normal_iff.1 hs
    have hn := NF_cons.1 hnf
    obtain ⟨l, h1, h2⟩ := allElems_spec (r :: r2 :: t) hmax
    generalize hq : (r2 :: t).getLast (by simp) = q
    have hqm : q ∈ r2 :: t := hq ▸ List.getLast_mem _
    have hprint : print (r :: r2 :: t) = .ok (showFirst r ++ showRest l q) := by
      simp only [print, h1, hq]; rfl
    have hlast : ∀ p ∈ r :: r2 :: t, p = q ∨ p.u < q.lo := by
      have hsplit : r :: r2 :: t = (r :: (r2 :: t).dropLast) ++ [q] := by
        rw [← hq, List.cons_append, List.dropLast_append_getLast]
      intro p hp
      have pw := hnf.2
      rw [hsplit] at pw hp
      rcases List.mem_append.1 hp with h | h
      · exact Or.inr ((List.pairwise_append.1 pw).2.2 p h q (by simp))
      · left; simpa using h
    have hfirst : ∀ p ∈ r :: r2 :: t, p = r ∨ r.u < p.lo := by
      intro p hp
      rcases List.mem_cons.1 hp with h | h
      · exact Or.inl h
      · exact Or.inr (hn.2.1 p h)
    have hval : ∀ p ∈ r :: r2 :: t, p.lo ≠ .posInf ∧ p.hi ≠ .negInf := fun p hp => (hs.1 p hp).2
    have key : ∀ p ∈ r :: r2 :: t, Bounded2 p ∨ (p = r ∧ ¬ isFin r.lo = true) ∨
        (p = q ∧ ¬ isFin q.hi = true) := by
      intro p hp
      by_cases b : Bounded2 p
      · exact Or.inl b
      right
      by_cases c : isFin p.lo = true
      · right
        have c2 : ¬ isFin p.hi = true := fun h => b ⟨c, h⟩
        rcases hlast p hp with h | h
        · exact ⟨h, h ▸ c2⟩
        · exfalso
          rcases notFin.1 c2 with h3 | h3
          · exact (hval p hp).2 h3
          · unfold Range.u at h; rw [h3] at h; simp at h
      · left
        rcases hfirst p hp with h | h
        · exact ⟨h, h ▸ c⟩
        · exfalso
          rcases notFin.1 c with h3 | h3
          · rw [h3] at h; simp at h
          · exact (hval p hp).1 h3
    have hmem : ∀ x, Mem x (r :: r2 :: t) ↔ ((¬ isFin r.lo = true ∧ r.Mem x) ∨ x ∈ l ∨
        (¬ isFin q.hi = true ∧ q.Mem x)) := by
      intro x
      constructor
      · rintro ⟨p, hp, hx⟩
        rcases key p hp with b | ⟨rfl, b⟩ | ⟨rfl, b⟩
        · exact Or.inr (Or.inl ((h2 x).2 ⟨p, hp, b, hx⟩))
        · exact Or.inl ⟨b, hx⟩
        · exact Or.inr (Or.inr ⟨b, hx⟩)
      · rintro (⟨-, hx⟩ | hx | ⟨-, hx⟩)
        · exact ⟨r, by simp, hx⟩
        · obtain ⟨p, hp, -, hx⟩ := (h2 x).1 hx
          exact ⟨p, hp, hx⟩
        · exact ⟨q, List.mem_cons_of_mem _ hqm, hx⟩
    have hqmem : ∀ x, q.Mem x → Mem x (r :: r2 :: t) := fun x hx =>
      ⟨q, List.mem_cons_of_mem _ hqm, hx⟩
    have hrest : ∃ e : SetExpr, showRest l q = e.text ∧
        ∀ x, ((¬ isFin r.lo = true ∧ r.Mem x) ∨ e.denotes x) ↔ Mem x (r :: r2 :: t) := by
      unfold showRest
      by_cases cl : l.isEmpty = true
      · rw [if_pos cl]
        refine ⟨rangeExpr q, (rangeExpr_text q).symm, fun x => ?_⟩
        rw [rangeExpr_denotes]
        have hl : x ∉ l := by simp at cl; simp [cl]
        constructor
        · rintro (h | h)
          · exact (hmem x).2 (Or.inl h)
          · exact hqmem x h
        · intro h
          rcases (hmem x).1 h with h | h | h
          · exact Or.inl h
          · exact absurd h hl
          · exact Or.inr h.2
      · rw [if_neg cl]
        by_cases cq : isFin q.hi = true
        · rw [if_pos cq]
          refine ⟨.literal l, rfl, fun x => ?_⟩
          rw [hmem]; simp [SetExpr.denotes, cq]
        · rw [if_neg cq]
          refine ⟨.union (.literal l) (rangeExpr q), ?_, fun x => ?_⟩
          · simp only [SetExpr.text, rangeExpr_text, String.append_assoc, braces]
          · rw [hmem]; simp [SetExpr.denotes, cq, rangeExpr_denotes]
    obtain ⟨e, he1, he2⟩ := hrest
    rw [hprint, he1]
    unfold showFirst
    by_cases cr : isFin r.lo = true
    · rw [if_pos cr]
      refine ⟨e, by rw [String.empty_append], fun x => ?_⟩
      rw [← he2]; simp [cr]
    · rw [if_neg cr]
      refine ⟨.union (rangeExpr r) e, ?_, fun x => ?_⟩
      · simp only [SetExpr.text, rangeExpr_text]
      · rw [← he2]; simp [SetExpr.denotes, cr, rangeExpr_denotes]

/-- What is missing: a set with at least two ranges, the last of which ends at the largest 64-bit
integer, cannot be printed at all; an arithmetic error is raised by the loop's `i++`. -/
theorem C09_print_max_error :
    print [⟨.fin 1, .fin 2⟩, ⟨.fin LMAX, .fin LMAX⟩] = .err ∧
    Normal [⟨.fin 1, .fin 2⟩, ⟨.fin LMAX, .fin LMAX⟩] := by
  constructor
  · have e1 : elems 1 2 = .ok [1, 2] := by
      rw [elems, if_pos (by decide), if_neg (by decide), show (1 : Int) + 1 = 2 from rfl,
        elems, if_pos (by decide), if_neg (by decide), show (2 : Int) + 1 = 3 from rfl,
        elems, if_neg (by decide)]; rfl
    have e2 : elems LMAX LMAX = .err := by
      rw [elems, if_pos (by decide), if_pos rfl]
    simp only [print, allElems, e1, e2]; rfl
  · exact ⟨by decide, by decide⟩

example : ∃ e : SetExpr, print [⟨.negInf, .fin 3⟩, ⟨.fin 5, .fin 6⟩, ⟨.fin 9, .posInf⟩] = .ok e.text ∧
    e.denotes 6 ∧ ¬ e.denotes 7 := by
  obtain ⟨e, h1, h2⟩ := C09_print_partial [⟨.negInf, .fin 3⟩, ⟨.fin 5, .fin 6⟩, ⟨.fin 9, .posInf⟩]
    ⟨by decide, by decide⟩ (by decide)
  refine ⟨e, h1, (h2 6).2 ?_, fun h => ?_⟩
  · simp [Mem, Range.Mem]
  · have := (h2 7).1 h; simp [Mem, Range.Mem] at this

end MZ
