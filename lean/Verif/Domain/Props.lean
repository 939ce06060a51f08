import Verif.Domain.Model
import Verif.Ranges.Props
import Verif.IntVal.Props
/-!
# C10: tightening a domain removes exactly the violating values
-/
namespace MZ
open Domain

/-- Specification: the meaning of the comparison `x bot k` on integers. -/
def Domain.Cmp.holds : Cmp → Int → Int → Prop
  | .le, x, k => x < k
  | .lq, x, k => x ≤ k
  | .gr, x, k => x > k
  | .gq, x, k => x ≥ k
  | .nq, x, k => x ≠ k
  | .eq, x, k => x = k

theorem ext_fin (k : Int) : ext (.fin k) = .fin k := rfl

theorem ll_bounded_up (dom : List Range) (hd : Normal dom) (k : Int) :
    Normal (upTo dom (.fin k)) ∧ ∀ x, Mem x (upTo dom (.fin k)) ↔ (Mem x dom ∧ x ≤ k) := by
  have h := C06_bounded none (some (.fin k)) dom hd (by simp) (by simp) (by simp)
  exact ⟨h.1, fun x => (h.2 x).trans (by simp)⟩

theorem ll_bounded_down (dom : List Range) (hd : Normal dom) (k : Int) :
    Normal (downTo dom (.fin k)) ∧ ∀ x, Mem x (downTo dom (.fin k)) ↔ (Mem x dom ∧ k ≤ x) := by
  have h := C06_bounded (some (.fin k)) none dom hd (by simp) (by simp) (by simp)
  exact ⟨h.1, fun x => (h.2 x).trans (by simp)⟩

/-- Whatever `limitDomain` returns for a finite 64-bit constant is the normal form of exactly the
old domain's values satisfying the comparison. -/
theorem C10_limitDomain (bot : Cmp) (dom d : List Range) (k : Int) (hd : Normal dom)
    (hk : inLL k) (h : limitDomain bot dom (.fin k) = .ok d) :
    Normal d ∧ ∀ x, Mem x d ↔ (Mem x dom ∧ bot.holds x k) := by
  cases bot with
  | lq =>
    simp only [limitDomain, Res.ok.injEq] at h; subst h
    exact ll_bounded_up dom hd k
  | gq =>
    simp only [limitDomain, Res.ok.injEq] at h; subst h
    exact ll_bounded_down dom hd k
  | le =>
    rw [limitDomain, C01_sub hk (by decide)] at h
    by_cases c : inLL (k - 1)
    · rw [if_pos c] at h
      have h : upTo dom (.fin (k - 1)) = d := by injection h
      subst h
      have := ll_bounded_up dom hd (k - 1)
      exact ⟨this.1, fun x => (this.2 x).trans (and_congr_right' (by simp [Cmp.holds]; omega))⟩
    · rw [if_neg c] at h; exact absurd h (by intro h; injection h)
  | gr =>
    rw [limitDomain, C01_add hk (by decide)] at h
    by_cases c : inLL (k + 1)
    · rw [if_pos c] at h
      have h : downTo dom (.fin (k + 1)) = d := by injection h
      subst h
      have := ll_bounded_down dom hd (k + 1)
      exact ⟨this.1, fun x => (this.2 x).trans (and_congr_right' (by simp [Cmp.holds]; omega))⟩
    · rw [if_neg c] at h; exact absurd h (by intro h; injection h)
  | nq =>
    have hc := C05_of_bounds (.fin k) (.fin k) (by simp) (by simp)
    obtain ⟨l, h1, h2, h3⟩ := C06_diff dom (Ranges.const (.fin k) (.fin k)) hd hc.1
    simp only [limitDomain, ext_fin, h1, Res.ok.injEq] at h; subst h
    refine ⟨h2, fun x => ?_⟩
    rw [h3, const_eq, hc.2]
    simp [Cmp.holds]; intro _; omega
  | eq => simp [limitDomain] at h

/-- It does return a domain, for every comparison other than `=`, unless the constant is the
smallest (for `<`) or largest (for `>`) 64-bit integer; then it raises an arithmetic error. -/
theorem C10_limitDomain_total (bot : Cmp) (dom : List Range) (k : Int) (hd : Normal dom)
    (hk : inLL k) (hb : bot ≠ .eq) :
    (∃ d, limitDomain bot dom (.fin k) = .ok d) ∨
    (limitDomain bot dom (.fin k) = .err ∧ ((bot = .le ∧ k = LMIN) ∨ (bot = .gr ∧ k = LMAX))) := by
  cases bot with
  | eq => exact absurd rfl hb
  | lq => exact Or.inl ⟨_, rfl⟩
  | gq => exact Or.inl ⟨_, rfl⟩
  | nq =>
    have hc := C05_of_bounds (.fin k) (.fin k) (by simp) (by simp)
    obtain ⟨l, h1, h2, h3⟩ := C06_diff dom (Ranges.const (.fin k) (.fin k)) hd hc.1
    left; exact ⟨l, by simp only [limitDomain, ext_fin, h1]⟩
  | le =>
    rw [limitDomain, C01_sub hk (by decide)]
    by_cases c : inLL (k - 1)
    · rw [if_pos c]; exact Or.inl ⟨_, rfl⟩
    · rw [if_neg c]
      refine Or.inr ⟨rfl, Or.inl ⟨rfl, ?_⟩⟩
      rw [inLL_iff] at c hk; unfold LMIN; omega
  | gr =>
    rw [limitDomain, C01_add hk (by decide)]
    by_cases c : inLL (k + 1)
    · rw [if_pos c]; exact Or.inl ⟨_, rfl⟩
    · rw [if_neg c]
      refine Or.inr ⟨rfl, Or.inr ⟨rfl, ?_⟩⟩
      rw [inLL_iff] at c hk; unfold LMAX; omega

example : limitDomain .nq [⟨.fin 1, .fin 5⟩] (.fin 3) = .ok [⟨.fin 1, .fin 2⟩, ⟨.fin 4, .fin 5⟩] := by
  decide

/-- Tightening with `x = k`, and with a whole interval, is done by intersection. -/
theorem C10_intersectInterval (dom : List Range) (v0 v1 : Ext) (hd : Normal dom)
    (h0 : v0 ≠ .posInf) (h1 : v1 ≠ .negInf) :
    Normal (intersectInterval dom v0 v1) ∧
    ∀ x, Mem x (intersectInterval dom v0 v1) ↔ (Mem x dom ∧ v0 ≤ .fin x ∧ .fin x ≤ v1) := by
  have hc := C05_of_bounds v0 v1 h0 h1
  have h := C06_inter dom (Ranges.const v0 v1) hd hc.1
  exact ⟨h.1, fun x => (h.2 x).trans (and_congr_right' (hc.2 x))⟩

/-- Intersecting two domains. -/
theorem C10_intersect (d0 d1 : List Range) (h0 : Normal d0) (h1 : Normal d1) :
    Normal (intersect d0 d1) ∧ ∀ x, Mem x (intersect d0 d1) ↔ (Mem x d0 ∧ Mem x d1) :=
  C06_inter d0 d1 h0 h1

end MZ
