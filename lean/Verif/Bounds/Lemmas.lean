import Verif.Bounds.Spec
import Verif.IntVal.Props
import Verif.Linear.Lemmas
import Verif.Linear.FlattenLemmas
import Verif.Ranges.Props
import Mathlib.Tactic.Linarith
/-!
# Lemmas on the steps of the bounds computation
-/
namespace MZ
namespace Bounds

/-- `s` with `t` below its stack. -/
def St.app (s : St) (t : List B) : St := ⟨s.stack ++ t, s.valid⟩

theorem pop_app {s s' : St} {b : B} (h : pop s = .ok (b, s')) (t : List B) :
    pop (s.app t) = .ok (b, s'.app t) := by
  unfold pop at h
  unfold pop St.app
  cases hs : s.stack with
  | nil => simp [hs] at h
  | cons c r =>
    simp only [hs, Res.ok.injEq, Prod.mk.injEq] at h
    obtain ⟨rfl, rfl⟩ := h
    simp

theorem push_app (b : B) (s : St) (t : List B) : push b (s.app t) = (push b s).app t := rfl
theorem giveUp_app (s : St) (t : List B) : giveUp (s.app t) = (giveUp s).app t := rfl
theorem pushDom_app (D : List Range) (s : St) (t : List B) :
    pushDom D (s.app t) = (pushDom D s).app t := by
  unfold pushDom; split <;> rfl
theorem pushResult_app (D : List Range) (s : St) (t : List B) :
    pushResult D (s.app t) = (pushResult D s).app t := by
  unfold pushResult; split <;> rfl
theorem pushOpt_app (D : Option B) (s : St) (t : List B) :
    pushOpt D (s.app t) = (pushOpt D s).app t := by
  unfold pushOpt; split <;> rfl

theorem vBinOp_app {op : Op} {s s' : St} (h : vBinOp op s = .ok s') (t : List B) :
    vBinOp op (s.app t) = .ok (s'.app t) := by
  unfold vBinOp at h ⊢
  simp only [Res.bind_eq_ok] at h ⊢
  obtain ⟨⟨b1, s1⟩, h1, ⟨b0, s0⟩, h0, h⟩ := h
  refine ⟨_, pop_app h1 t, _, pop_app h0 t, ?_⟩
  dsimp only at h ⊢
  by_cases hf : (!finite4 b0 b1) = true
  · rw [if_pos hf] at h ⊢; injection h with h; rw [← h]; rfl
  · rw [if_neg hf] at h ⊢
    simp only [Res.bind_eq_ok, Res.ok.injEq] at h ⊢
    obtain ⟨r, hr, h⟩ := h
    exact ⟨r, hr, by rw [pushOpt_app, h]⟩

theorem vTimes_app {s s' : St} (h : vTimes s = .ok s') (t : List B) :
    vTimes (s.app t) = .ok (s'.app t) := by
  unfold vTimes at h ⊢
  simp only [Res.bind_eq_ok] at h ⊢
  obtain ⟨⟨b1, s1⟩, h1, ⟨b0, s0⟩, h0, h⟩ := h
  refine ⟨_, pop_app h1 t, _, pop_app h0 t, ?_⟩
  dsimp only at h ⊢
  by_cases hf : (!finite4 b0 b1) = true
  · rw [if_pos hf] at h ⊢; injection h with h; rw [← h]; rfl
  · rw [if_neg hf] at h ⊢
    simp only [Res.bind_eq_ok, Res.ok.injEq] at h ⊢
    obtain ⟨r, hr, h⟩ := h
    exact ⟨r, hr, by rw [push_app, h]⟩

theorem vNeg_app {s s' : St} (h : vNeg s = .ok s') (t : List B) :
    vNeg (s.app t) = .ok (s'.app t) := by
  unfold vNeg at h ⊢
  simp only [Res.bind_eq_ok] at h ⊢
  obtain ⟨⟨b1, s1⟩, h1, l, hl, u, hu, h⟩ := h
  refine ⟨_, pop_app h1 t, l, hl, u, hu, ?_⟩
  injection h with h; rw [← h]; rfl

theorem vBool2Int_app {s s' : St} (h : vBool2Int s = .ok s') (t : List B) :
    vBool2Int (s.app t) = .ok (s'.app t) := by
  unfold vBool2Int at h ⊢
  simp only [Res.bind_eq_ok] at h ⊢
  obtain ⟨⟨b1, s1⟩, h1, h⟩ := h
  refine ⟨_, pop_app h1 t, ?_⟩
  injection h with h; rw [← h]; rfl

theorem vUniform_app {s s' : St} (h : vUniform s = .ok s') (t : List B) :
    vUniform (s.app t) = .ok (s'.app t) := by
  unfold vUniform at h ⊢
  simp only [Res.bind_eq_ok] at h ⊢
  obtain ⟨⟨b1, s1⟩, h1, ⟨b0, s0⟩, h0, h⟩ := h
  refine ⟨_, pop_app h1 t, _, pop_app h0 t, ?_⟩
  injection h with h; rw [← h]; rfl

theorem vAbs_app {s s' : St} (h : vAbs s = .ok s') (t : List B) :
    vAbs (s.app t) = .ok (s'.app t) := by
  unfold vAbs at h ⊢
  simp only [Res.bind_eq_ok] at h ⊢
  obtain ⟨⟨b, s1⟩, h1, h⟩ := h
  refine ⟨_, pop_app h1 t, ?_⟩
  dsimp only at h ⊢
  by_cases c1 : IntVal.lt b.1 (.fin 0) = true
  · rw [if_pos c1] at h ⊢
    by_cases c2 : IntVal.lt b.2 (.fin 0) = true
    · rw [if_pos c2] at h ⊢
      simp only [Res.bind_eq_ok] at h ⊢
      obtain ⟨l, hl, u, hu, h⟩ := h
      refine ⟨l, hl, u, hu, ?_⟩
      injection h with h; rw [← h]; rfl
    · rw [if_neg c2] at h ⊢
      simp only [Res.bind_eq_ok] at h ⊢
      obtain ⟨l, hl, h⟩ := h
      refine ⟨l, hl, ?_⟩
      injection h with h; rw [← h]; rfl
  · rw [if_neg c1] at h ⊢
    injection h with h; rw [← h]

theorem popN_app (n : Nat) {s s' : St} (h : popN n s = .ok s') (t : List B) :
    popN n (s.app t) = .ok (s'.app t) := by
  induction n generalizing s with
  | zero => simp only [popN, Res.ok.injEq] at h ⊢; rw [h]
  | succ n ih =>
    simp only [popN, Res.bind_eq_ok] at h ⊢
    obtain ⟨⟨b, s1⟩, h1, h⟩ := h
    exact ⟨_, pop_app h1 t, ih h⟩

theorem linLoop_app (cs : List Int) {s s' : St} {lb ub : IntVal} {b : B}
    (h : linLoop cs s lb ub = .ok (b, s')) (t : List B) :
    linLoop cs (s.app t) lb ub = .ok (b, s'.app t) := by
  induction cs generalizing s lb ub with
  | nil =>
    simp only [linLoop, Res.ok.injEq, Prod.mk.injEq] at h ⊢
    exact ⟨h.1, by rw [h.2]⟩
  | cons c cs ih =>
    simp only [linLoop, Res.bind_eq_ok] at h ⊢
    obtain ⟨⟨b, s1⟩, h1, h⟩ := h
    refine ⟨_, pop_app h1 t, ?_⟩
    dsimp only at h ⊢
    by_cases c0 : c > 0
    · rw [if_pos c0] at h ⊢
      simp only [Res.bind_eq_ok] at h ⊢
      obtain ⟨l, hl, u, hu, h⟩ := h
      exact ⟨l, hl, u, hu, ih h⟩
    · rw [if_neg c0] at h ⊢
      simp only [Res.bind_eq_ok] at h ⊢
      obtain ⟨l, hl, u, hu, h⟩ := h
      exact ⟨l, hl, u, hu, ih h⟩

mutual
theorem run_app (t : List B) : ∀ (e : E) (s s' : St), run e s = .ok s' →
    run e (s.app t) = .ok (s'.app t)
  | .parInt _, s, s', h => by simp only [run, Res.ok.injEq] at h ⊢; rw [← h]; rfl
  | .parBool _, s, s', h => by simp only [run, Res.ok.injEq] at h ⊢; rw [← h]; rfl
  | .parOther, s, s', h => by simp only [run, Res.ok.injEq] at h ⊢; rw [← h]; rfl
  | .array, s, s', h => by simp only [run, Res.ok.injEq] at h ⊢; rw [← h]
  | .boolExpr _, s, s', h => by simp only [run, Res.ok.injEq] at h ⊢; rw [← h]; rfl
  | .boolDom _, s, s', h => by simp only [run, Res.ok.injEq] at h ⊢; rw [← h]; rfl
  | .boolRhs e, s, s', h => by simp only [run] at h ⊢; exact run_app t e s s' h
  | .boolVar _, s, s', h => by simp only [run, Res.ok.injEq] at h ⊢; rw [← h]; rfl
  | .varDom _ _, s, s', h => by
    simp only [run, Res.ok.injEq] at h ⊢; rw [← h, pushDom_app]
  | .varRhs e, s, s', h => by simp only [run] at h ⊢; exact run_app t e s s' h
  | .var _, s, s', h => by simp only [run, Res.ok.injEq] at h ⊢; rw [← h]; rfl
  | .accElem idx e, s, s', h => by
    simp only [run, Res.bind_eq_ok] at h ⊢
    obtain ⟨s1, h1, s2, h2, h⟩ := h
    exact ⟨_, runRev_app t idx _ _ h1, _, popN_app _ h2 t, run_app t e _ _ h⟩
  | .accDom _ idx _, s, s', h => by
    simp only [run, Res.bind_eq_ok, Res.ok.injEq] at h ⊢
    obtain ⟨s1, h1, s2, h2, h⟩ := h
    exact ⟨_, runRev_app t idx _ _ h1, _, popN_app _ h2 t, by rw [pushDom_app, h]⟩
  | .acc _ idx, s, s', h => by
    simp only [run, Res.bind_eq_ok, Res.ok.injEq] at h ⊢
    obtain ⟨s1, h1, s2, h2, h⟩ := h
    exact ⟨_, runRev_app t idx _ _ h1, _, popN_app _ h2 t, by rw [giveUp_app, h]⟩
  | .bin _ a b, s, s', h => by
    simp only [run, Res.bind_eq_ok] at h ⊢
    obtain ⟨s1, h1, s2, h2, h⟩ := h
    exact ⟨_, run_app t a _ _ h1, _, run_app t b _ _ h2, vBinOp_app h t⟩
  | .plus a, s, s', h => by simp only [run] at h ⊢; exact run_app t a s s' h
  | .neg a, s, s', h => by
    simp only [run, Res.bind_eq_ok] at h ⊢
    obtain ⟨s1, h1, h⟩ := h
    exact ⟨_, run_app t a _ _ h1, vNeg_app h t⟩
  | .ite bs, s, s', h => by simp only [run] at h ⊢; exact runIte_app t bs _ s s' h
  | .lin cs xs _, s, s', h => by
    simp only [run, Res.bind_eq_ok] at h ⊢
    obtain ⟨s1, h1, h⟩ := h
    refine ⟨_, runRev_app t xs _ _ h1, ?_⟩
    change (if (!s1.valid) = true then _ else _) = _
    by_cases hv : (!s1.valid) = true
    · rw [if_pos hv] at h ⊢; injection h with h; rw [← h]; rfl
    · rw [if_neg hv] at h ⊢
      simp only [Res.bind_eq_ok] at h ⊢
      obtain ⟨⟨b, s2⟩, h2, h⟩ := h
      refine ⟨_, linLoop_app _ h2 t, ?_⟩
      injection h with h; rw [← h]; rfl
  | .sum xs, s, s', h => by
    simp only [run, Res.bind_eq_ok] at h ⊢
    obtain ⟨s1, h1, h⟩ := h
    refine ⟨_, runRev_app t xs _ _ h1, ?_⟩
    change (if (!s1.valid) = true then _ else _) = _
    by_cases hv : (!s1.valid) = true
    · rw [if_pos hv] at h ⊢; injection h with h; rw [← h]; rfl
    · rw [if_neg hv] at h ⊢
      simp only [Res.bind_eq_ok] at h ⊢
      obtain ⟨⟨b, s2⟩, h2, h⟩ := h
      refine ⟨_, linLoop_app _ h2 t, ?_⟩
      injection h with h; rw [← h]; rfl
  | .card _ none, s, s', h => by simp only [run, Res.ok.injEq] at h ⊢; rw [← h]; rfl
  | .card _ (some _), s, s', h => by simp only [run, Res.ok.injEq] at h ⊢; rw [← h]; rfl
  | .times a b, s, s', h => by
    simp only [run, Res.bind_eq_ok] at h ⊢
    obtain ⟨s1, h1, s2, h2, h⟩ := h
    exact ⟨_, run_app t b _ _ h1, _, run_app t a _ _ h2, vTimes_app h t⟩
  | .bool2int a, s, s', h => by
    simp only [run, Res.bind_eq_ok] at h ⊢
    obtain ⟨s1, h1, h⟩ := h
    exact ⟨_, run_app t a _ _ h1, vBool2Int_app h t⟩
  | .abs a, s, s', h => by
    simp only [run, Res.bind_eq_ok] at h ⊢
    obtain ⟨s1, h1, h⟩ := h
    exact ⟨_, run_app t a _ _ h1, vAbs_app h t⟩
  | .uniform _ a b, s, s', h => by
    simp only [run, Res.bind_eq_ok] at h ⊢
    obtain ⟨s1, h1, s2, h2, h⟩ := h
    exact ⟨_, run_app t b _ _ h1, _, run_app t a _ _ h2, vUniform_app h t⟩
  | .same a, s, s', h => by simp only [run] at h ⊢; exact run_app t a s s' h
  | .call _ args _, s, s', h => by
    simp only [run, Res.bind_eq_ok, Res.ok.injEq] at h ⊢
    obtain ⟨s1, h1, s2, h2, h⟩ := h
    exact ⟨_, runRev_app t args _ _ h1, _, popN_app _ h2 t, by rw [pushResult_app, h]⟩
  | .unknown _ args, s, s', h => by
    simp only [run, Res.bind_eq_ok, Res.ok.injEq] at h ⊢
    obtain ⟨s1, h1, h⟩ := h
    exact ⟨_, runRev_app t args _ _ h1, by rw [giveUp_app, h]⟩
theorem runRev_app (t : List B) : ∀ (es : Es) (s s' : St), runRev es s = .ok s' →
    runRev es (s.app t) = .ok (s'.app t)
  | .nil, s, s', h => by simp only [runRev, Res.ok.injEq] at h ⊢; rw [h]
  | .cons e es, s, s', h => by
    simp only [runRev, Res.bind_eq_ok] at h ⊢
    obtain ⟨s1, h1, h⟩ := h
    exact ⟨_, runRev_app t es _ _ h1, run_app t e _ _ h⟩
theorem runIte_app (t : List B) : ∀ (bs : Bs) (acc : B) (s s' : St), runIte bs acc s = .ok s' →
    runIte bs acc (s.app t) = .ok (s'.app t)
  | .els e, acc, s, s', h => by
    simp only [runIte, Res.bind_eq_ok] at h ⊢
    obtain ⟨s1, h1, ⟨b, s2⟩, h2, h⟩ := h
    refine ⟨_, run_app t e _ _ h1, _, pop_app h2 t, ?_⟩
    injection h with h; rw [← h]; rfl
  | .cons (.par true) e _, acc, s, s', h => by
    simp only [runIte, Res.bind_eq_ok] at h ⊢
    obtain ⟨s1, h1, ⟨b, s2⟩, h2, h⟩ := h
    refine ⟨_, run_app t e _ _ h1, _, pop_app h2 t, ?_⟩
    injection h with h; rw [← h]; rfl
  | .cons (.par false) _ bs, acc, s, s', h => by
    simp only [runIte] at h ⊢; exact runIte_app t bs acc s s' h
  | .cons (.var _) e bs, acc, s, s', h => by
    simp only [runIte, Res.bind_eq_ok] at h ⊢
    obtain ⟨s1, h1, ⟨b, s2⟩, h2, h⟩ := h
    exact ⟨_, run_app t e _ _ h1, _, pop_app h2 t, runIte_app t bs _ _ _ h⟩
end

/-! ### arithmetic -/

theorem min_fin (a b : Int) : IntVal.min (.fin a) (.fin b) = .fin (min a b) := by
  have e : IntVal.lt (.fin b) (.fin a) = decide (b < a) := by
    simp [IntVal.lt, IntVal.isPlusInfinity, IntVal.isMinusInfinity, IntVal.isFinite, IntVal.fin]; rfl
  unfold IntVal.min
  by_cases h : b < a
  · rw [if_pos (by rw [e]; simpa using h), min_eq_right (by omega)]
  · rw [if_neg (by rw [e]; simpa using h), min_eq_left (by omega)]

theorem max_fin (a b : Int) : IntVal.max (.fin a) (.fin b) = .fin (max a b) := by
  have e : IntVal.lt (.fin a) (.fin b) = decide (a < b) := by
    simp [IntVal.lt, IntVal.isPlusInfinity, IntVal.isMinusInfinity, IntVal.isFinite, IntVal.fin]; rfl
  unfold IntVal.max
  by_cases h : a < b
  · rw [if_pos (by rw [e]; simpa using h), max_eq_right (by omega)]
  · rw [if_neg (by rw [e]; simpa using h), max_eq_left (by omega)]

theorem prod_between {x c y d : Int} (h1 : c ≤ y) (h2 : y ≤ d) :
    min (x * c) (x * d) ≤ x * y ∧ x * y ≤ max (x * c) (x * d) := by
  rcases le_total 0 x with h | h
  · exact ⟨(min_le_left _ _).trans (by nlinarith), le_trans (by nlinarith) (le_max_right _ _)⟩
  · exact ⟨(min_le_right _ _).trans (by nlinarith), le_trans (by nlinarith) (le_max_left _ _)⟩

theorem mul_corners {a b c d x y : Int} (h1 : a ≤ x) (h2 : x ≤ b) (h3 : c ≤ y) (h4 : y ≤ d) :
    min (a * c) (min (a * d) (min (b * c) (b * d))) ≤ x * y ∧
    x * y ≤ max (a * c) (max (a * d) (max (b * c) (b * d))) := by
  have hy := prod_between (x := x) h3 h4
  have hc := prod_between (x := c) h1 h2
  have hd := prod_between (x := d) h1 h2
  rw [mul_comm c, mul_comm c, mul_comm c] at hc
  rw [mul_comm d, mul_comm d, mul_comm d] at hd
  simp only [min_le_iff, le_max_iff] at *
  omega

theorem tdiv_anti {a c y : Int} (ha : 0 ≤ a) (hc : 0 < c) (h : c ≤ y) : a.tdiv y ≤ a.tdiv c := by
  obtain ⟨a, rfl⟩ := Int.eq_ofNat_of_zero_le ha
  obtain ⟨c, rfl⟩ := Int.eq_ofNat_of_zero_le (show 0 ≤ c by omega)
  obtain ⟨y, rfl⟩ := Int.eq_ofNat_of_zero_le (show 0 ≤ y by omega)
  have : a / y ≤ a / c := Nat.div_le_div_left (by omega) (by omega)
  simp only [Int.ofNat_eq_natCast, ← Int.ofNat_tdiv]
  exact_mod_cast this

theorem tdiv_between {a c y d : Int} (hc : 0 < c) (h1 : c ≤ y) (h2 : y ≤ d) :
    min (a.tdiv c) (a.tdiv d) ≤ a.tdiv y ∧ a.tdiv y ≤ max (a.tdiv c) (a.tdiv d) := by
  rcases le_total 0 a with h | h
  · exact ⟨(min_le_right _ _).trans (tdiv_anti h (by omega) h2),
      le_trans (tdiv_anti h hc h1) (le_max_left _ _)⟩
  · have h' : 0 ≤ -a := by omega
    have e1 := tdiv_anti h' (show 0 < y by omega) h2
    have e2 := tdiv_anti h' hc h1
    rw [Int.neg_tdiv, Int.neg_tdiv] at e1 e2
    exact ⟨(min_le_left _ _).trans (by omega), le_trans (by omega) (le_max_right _ _)⟩

theorem tdiv_corners_pos {a b c d x y : Int} (h1 : a ≤ x) (h2 : x ≤ b) (h3 : c ≤ y) (h4 : y ≤ d)
    (hc : 0 < c) :
    min (a.tdiv c) (min (a.tdiv d) (min (b.tdiv c) (b.tdiv d))) ≤ x.tdiv y ∧
    x.tdiv y ≤ max (a.tdiv c) (max (a.tdiv d) (max (b.tdiv c) (b.tdiv d))) := by
  have e1 : a.tdiv y ≤ x.tdiv y := Int.tdiv_le_tdiv (by omega) h1
  have e2 : x.tdiv y ≤ b.tdiv y := Int.tdiv_le_tdiv (by omega) h2
  have ha := tdiv_between (a := a) hc h3 h4
  have hb := tdiv_between (a := b) hc h3 h4
  simp only [min_le_iff, le_max_iff] at *
  omega

theorem tdiv_corners {a b c d x y : Int} (h1 : a ≤ x) (h2 : x ≤ b) (h3 : c ≤ y) (h4 : y ≤ d)
    (hc : 0 < c ∨ d < 0) :
    min (a.tdiv c) (min (a.tdiv d) (min (b.tdiv c) (b.tdiv d))) ≤ x.tdiv y ∧
    x.tdiv y ≤ max (a.tdiv c) (max (a.tdiv d) (max (b.tdiv c) (b.tdiv d))) := by
  rcases hc with hc | hc
  · exact tdiv_corners_pos h1 h2 h3 h4 hc
  · have := tdiv_corners_pos (a := a) (b := b) (c := -d) (d := -c) (x := x) (y := -y) h1 h2
      (by omega) (by omega) (by omega)
    simp only [Int.tdiv_neg, min_le_iff, le_max_iff] at *
    omega

end Bounds
end MZ
