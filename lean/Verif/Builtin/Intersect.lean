import Verif.IntVal.Model
import Mathlib.Tactic.Push
import Mathlib.Tactic.ByContra
/-!
# `array_union`/`array_intersect` of parameter sets: the intersection (lib/builtins.cpp 3004–3053)

Sets are lists of finite ranges. 64-bit overflow of `max + 2` and infinite bounds (for which the addition throws) are not modelled.
-/
namespace MZ
namespace Builtin

abbrev Rng := Int × Int

/-- Outcome of one pass over the sets (3015–3040): a `goto done`, a `goto restart` with new bounds, or the end of the loop. -/
inductive Pass where
  | done
  | restart (lo hi : Int)
  | next (lo hi : Int)
  deriving DecidableEq, Repr

/-- 3017–3040: the loop over `j`. The list has the sets in the order of the loop, the last set of the array first. -/
def pass : List (List Rng) → Int → Int → Pass
  | [], lo, hi => .next lo hi
  | s :: js, lo, hi =>
    match s.dropWhile (fun r => r.2 < lo) with
    | [] => .done
    | r :: _ => if r.1 > hi then .restart r.1 r.2 else pass js (if lo < r.1 then r.1 else lo) (if hi > r.2 then r.2 else hi)

/-- 3016–3040 with the jumps to `restart`, of which `n` are allowed: `none` if that is not enough, `some none` for `goto done`. -/
def inner (js : List (List Rng)) : Nat → Int → Int → Option (Option Rng)
  | 0, _, _ => none
  | n + 1, lo, hi =>
    match pass js lo hi with
    | .done => some none
    | .restart lo' hi' => inner js n lo' hi'
    | .next lo' hi' => some (some (lo', hi'))

/-- 3012–3045: the `while` loop, whose iterator is never advanced: `b` is the end of the first range of the first set. -/
def outer (js : List (List Rng)) (b : Int) (m : Nat) : Nat → Int → Option (List Rng)
  | 0, _ => none
  | n + 1, lo =>
    match inner js m lo b with
    | none => none
    | some none => some []
    | some (some r) => (outer js b m n (r.2 + 2)).map (r :: ·)

/-- 3004–3053 `b_array_intersect`. `n` bounds the number of rounds of the loops; `none` if that is not enough. -/
def arrayIntersect (n : Nat) (al : List (List Rng)) : Option (Res (List Rng)) :=
  match al with
  | [] => some .err
  | [] :: _ => some (.ok [])
  | (r :: s) :: al' => (outer ((r :: s) :: al').reverse r.2 n n r.1).map .ok

/-! ### Specification -/

/-- Membership in a set. -/
def In (x : Int) (s : List Rng) : Prop := ∃ r ∈ s, r.1 ≤ x ∧ x ≤ r.2

/-- The ranges are not empty, in order, and not adjacent. -/
def Norm (s : List Rng) : Prop := (∀ r ∈ s, r.1 ≤ r.2) ∧ s.Pairwise fun r t => r.2 + 1 < t.1

theorem Norm.tail {r : Rng} {s : List Rng} (h : Norm (r :: s)) : Norm s :=
  ⟨fun q hq => h.1 q (.tail _ hq), (List.pairwise_cons.1 h.2).2⟩

theorem In.cons {x : Int} {r : Rng} {s : List Rng} : In x (r :: s) ↔ (r.1 ≤ x ∧ x ≤ r.2) ∨ In x s := by
  simp [In]

/-- Skipping the ranges that end below `lo`. -/
theorem dropWhile_in {s : List Rng} (hs : Norm s) {lo : Int} :
    (s.dropWhile (fun r => r.2 < lo) = [] → ∀ x, lo ≤ x → ¬ In x s) ∧
    ∀ r t, s.dropWhile (fun r => r.2 < lo) = r :: t → r ∈ s ∧ lo ≤ r.2 ∧ ∀ x, lo ≤ x → In x s → r.1 ≤ x := by
  induction s with
  | nil => exact ⟨fun _ x _ h => by simp [In] at h, fun r t h => by simp at h⟩
  | cons a s ih =>
    obtain ⟨i1, i2⟩ := ih hs.tail
    rw [List.dropWhile_cons]
    by_cases h : a.2 < lo
    · simp only [h, decide_true, if_true]
      refine ⟨fun e x hx hm => ?_, fun r t e => ?_⟩
      · rcases In.cons.1 hm with g | g
        · omega
        · exact i1 e x hx g
      · obtain ⟨j1, j2, j3⟩ := i2 r t e
        refine ⟨.tail _ j1, j2, fun x hx hm => ?_⟩
        rcases In.cons.1 hm with g | g
        · omega
        · exact j3 x hx g
    · simp only [h, decide_false, Bool.false_eq_true, if_false]
      refine ⟨fun e => by simp at e, fun r t e => ?_⟩
      simp only [List.cons.injEq] at e
      obtain ⟨rfl, rfl⟩ := e
      refine ⟨.head _, by omega, fun x hx hm => ?_⟩
      rcases In.cons.1 hm with g | ⟨q, hq, g⟩
      · exact g.1
      · have := (List.pairwise_cons.1 hs.2).1 q hq
        have := hs.1 a (.head _)
        omega

/-- The end of a range is the end of the set's stretch. -/
theorem gap {s : List Rng} (hs : Norm s) {r : Rng} (hr : r ∈ s) : ¬ In (r.2 + 1) s := by
  rintro ⟨q, hq, h1, h2⟩
  induction s with
  | nil => cases hr
  | cons a s ih =>
    have hp := (List.pairwise_cons.1 hs.2).1
    have ha := hs.1 a (.head _)
    rcases List.mem_cons.1 hr with e | hr'
    · rcases List.mem_cons.1 hq with e' | hq'
      · subst e e'; omega
      · have := hp q hq'; subst e; omega
    · rcases List.mem_cons.1 hq with e' | hq'
      · have := hp r hr'
        have := hs.tail.1 r hr'
        subst e'
        omega
      · exact ih hs.tail hr' hq'

/-- One pass, started with a non-empty interval. -/
theorem pass_ok : ∀ (js : List (List Rng)) (lo hi : Int), (∀ s ∈ js, Norm s) → lo ≤ hi →
    match pass js lo hi with
    | .done => ∀ x, lo ≤ x → ∃ s ∈ js, ¬ In x s
    | .restart l h => lo < l ∧ l ≤ h ∧ (∃ s ∈ js, (l, h) ∈ s) ∧ ∀ x, lo ≤ x → (∀ s ∈ js, In x s) → l ≤ x
    | .next l h => lo ≤ l ∧ l ≤ h ∧ h ≤ hi ∧ (∀ x, l ≤ x → x ≤ h → ∀ s ∈ js, In x s) ∧ (∀ x, lo ≤ x → (∀ s ∈ js, In x s) → l ≤ x) ∧
        (h = hi ∨ ∃ s ∈ js, ¬ In (h + 1) s)
  | [], lo, hi, _, h => by
    simp only [pass]
    refine ⟨Int.le_refl _, h, Int.le_refl _, fun _ _ _ s hs => absurd hs (List.not_mem_nil), fun x hx _ => hx, ?_⟩
    simp
  | s :: js, lo, hi, hn, h => by
    have hs := hn s (.head _)
    obtain ⟨d1, d2⟩ := dropWhile_in hs (lo := lo)
    rw [pass]
    cases hd : s.dropWhile (fun r => r.2 < lo) with
    | nil => exact fun x hx => ⟨s, .head _, d1 hd x hx⟩
    | cons r t =>
      obtain ⟨r1, r2, r3⟩ := d2 r t hd
      have r4 := hs.1 r r1
      simp only
      by_cases hlt : r.1 > hi
      · rw [if_pos hlt]
        exact ⟨by omega, r4, ⟨s, .head _, r1⟩, fun x hx hm => r3 x hx (hm s (.head _))⟩
      · rw [if_neg hlt]
        have el : (if lo < r.1 then r.1 else lo) = max lo r.1 := by split <;> omega
        have eh : (if hi > r.2 then r.2 else hi) = min hi r.2 := by split <;> omega
        rw [el, eh]
        have ih := pass_ok js (max lo r.1) (min hi r.2) (fun q hq => hn q (.tail _ hq)) (by omega)
        cases hp : pass js (max lo r.1) (min hi r.2) with
        | done =>
          rw [hp] at ih
          intro x hx
          by_cases hx' : r.1 ≤ x
          · obtain ⟨q, hq, h'⟩ := ih x (by omega)
            exact ⟨q, .tail _ hq, h'⟩
          · exact ⟨s, .head _, fun hm => hx' (r3 x hx hm)⟩
        | restart l h' =>
          rw [hp] at ih
          obtain ⟨a1, a2, ⟨q, hq, a3⟩, a4⟩ := ih
          refine ⟨by omega, a2, ⟨q, .tail _ hq, a3⟩, fun x hx hm => ?_⟩
          have := r3 x hx (hm s (.head _))
          exact a4 x (by omega) fun q hq => hm q (.tail _ hq)
        | next l h' =>
          rw [hp] at ih
          obtain ⟨a1, a2, a3, a4, a5, a6⟩ := ih
          refine ⟨by omega, a2, by omega, ?_, ?_, ?_⟩
          · intro x hx hx' q hq
            rcases List.mem_cons.1 hq with rfl | hq
            · exact ⟨r, r1, by omega, by omega⟩
            · exact a4 x hx hx' q hq
          · intro x hx hm
            have := r3 x hx (hm s (.head _))
            exact a5 x (by omega) fun q hq => hm q (.tail _ hq)
          · rcases a6 with a6 | ⟨q, hq, a6⟩
            · by_cases e : hi ≤ r.2
              · exact .inl (by omega)
              · refine .inr ⟨s, .head _, ?_⟩
                have : h' = r.2 := by omega
                rw [this]
                exact gap hs r1
            · exact .inr ⟨q, .tail _ hq, a6⟩

/-- The number of ranges that start above `lo`. -/
def above (js : List (List Rng)) (lo : Int) : Nat := js.flatten.countP fun r => lo < r.1

theorem above_lt {js : List (List Rng)} {lo l h : Int} {s : List Rng} (hs : s ∈ js) (hr : (l, h) ∈ s) (hl : lo < l) : above js l < above js lo := by
  unfold above
  have hm : (l, h) ∈ js.flatten := List.mem_flatten.2 ⟨s, hs, hr⟩
  generalize js.flatten = rs at hm
  induction rs with
  | nil => cases hm
  | cons a rs ih =>
    have hle : rs.countP (fun r => l < r.1) ≤ rs.countP (fun r => lo < r.1) :=
      List.countP_mono_left fun r _ h => by simp only [decide_eq_true_eq] at *; omega
    rw [List.countP_cons, List.countP_cons]
    rcases List.mem_cons.1 hm with rfl | hm
    · simp [hl]; omega
    · have := ih hm
      by_cases h1 : l < a.1
      · have : lo < a.1 := by omega
        simp [h1, this]; omega
      · simp [h1]; omega

/-- From a non-empty interval on: the next stretch of the intersection. -/
theorem inner_ok {js : List (List Rng)} (hn : ∀ s ∈ js, Norm s) : ∀ (n : Nat) (lo hi : Int), lo ≤ hi → above js lo < n →
    (∃ s ∈ js, ¬ In (hi + 1) s) →
    (inner js n lo hi = some none ∧ ∀ x, lo ≤ x → ∃ s ∈ js, ¬ In x s) ∨
    ∃ l h, inner js n lo hi = some (some (l, h)) ∧ lo ≤ l ∧ l ≤ h ∧ (∀ x, l ≤ x → x ≤ h → ∀ s ∈ js, In x s) ∧
      (∀ x, lo ≤ x → (∀ s ∈ js, In x s) → l ≤ x) ∧ ∃ s ∈ js, ¬ In (h + 1) s
  | 0, _, _, _, h, _ => by omega
  | n + 1, lo, hi, hle, hc, hg => by
    have hp := pass_ok js lo hi hn hle
    rw [inner]
    cases e : pass js lo hi with
    | done => rw [e] at hp; exact .inl ⟨rfl, hp⟩
    | restart l h =>
      rw [e] at hp
      obtain ⟨a1, a2, ⟨s, hs, a3⟩, a4⟩ := hp
      have hlt := above_lt hs a3 a1
      rcases inner_ok hn n l h a2 (by omega) ⟨s, hs, gap (hn s hs) a3⟩ with ⟨b1, b2⟩ | ⟨l', h', b1, b2, b3, b4, b5, b6⟩
      · refine .inl ⟨b1, fun x hx => ?_⟩
        by_cases hx' : l ≤ x
        · exact b2 x hx'
        · by_contra hc
          exact hx' (a4 x hx fun s hs => by_contra fun hf => hc ⟨s, hs, hf⟩)
      · refine .inr ⟨l', h', b1, by omega, b3, b4, fun x hx hm => b5 x (a4 x hx hm) hm, b6⟩
    | next l h =>
      rw [e] at hp
      obtain ⟨a1, a2, a3, a4, a5, a6⟩ := hp
      refine .inr ⟨l, h, rfl, a1, a2, a4, a5, ?_⟩
      rcases a6 with rfl | a6
      · exact hg
      · exact a6

theorem inner_mono {js : List (List Rng)} : ∀ {n : Nat} {lo hi : Int} {r : Option Rng}, inner js n lo hi = some r → ∀ m, n ≤ m → inner js m lo hi = some r
  | 0, _, _, _, h, _, _ => by simp [inner] at h
  | n + 1, lo, hi, r, h, 0, hm => by omega
  | n + 1, lo, hi, r, h, m + 1, hm => by
    rw [inner] at h ⊢
    cases e : pass js lo hi with
    | done => rw [e] at h; exact h
    | next l h' => rw [e] at h; exact h
    | restart l h' => rw [e] at h; exact inner_mono h m (by omega)

/-- A pass that starts beyond the end of the only range of the first set. -/
theorem pass_end {a b : Int} : ∀ (js : List (List Rng)) (lo hi : Int), (∀ s ∈ js, Norm s) → b < lo → b ≤ hi →
    pass (js ++ [[(a, b)]]) lo hi = .done ∨ ∃ l h, pass (js ++ [[(a, b)]]) lo hi = .restart l h ∧ b < l ∧ l ≤ h ∧ (∃ s ∈ js, (l, h) ∈ s) ∧ (lo ≤ hi → lo < l)
  | [], lo, hi, _, h, h2 => by
    left
    simp [pass, List.dropWhile_cons, h]
  | s :: js, lo, hi, hn, h, h2 => by
    have hs := hn s (.head _)
    obtain ⟨d1, d2⟩ := dropWhile_in hs (lo := lo)
    rw [List.cons_append, pass]
    cases hd : s.dropWhile (fun r => r.2 < lo) with
    | nil => exact .inl rfl
    | cons r t =>
      obtain ⟨r1, r2, r3⟩ := d2 r t hd
      have r4 := hs.1 r r1
      simp only
      by_cases hlt : r.1 > hi
      · rw [if_pos hlt]
        exact .inr ⟨r.1, r.2, rfl, by omega, r4, ⟨s, .head _, r1⟩, fun _ => by omega⟩
      · rw [if_neg hlt]
        have el : (if lo < r.1 then r.1 else lo) = max lo r.1 := by split <;> omega
        have eh : (if hi > r.2 then r.2 else hi) = min hi r.2 := by split <;> omega
        rw [el, eh]
        rcases pass_end (a := a) (b := b) js (max lo r.1) (min hi r.2) (fun q hq => hn q (.tail _ hq)) (by omega) (by omega) with e | ⟨l, h', e, b1, b2, ⟨q, hq, b3⟩, b4⟩
        · exact .inl e
        · refine .inr ⟨l, h', e, b1, b2, ⟨q, .tail _ hq, b3⟩, fun hle => ?_⟩
          have := b4 (by omega)
          omega

theorem inner_end {a b : Int} {js : List (List Rng)} (hn : ∀ s ∈ js, Norm s) : ∀ (n : Nat) (lo hi : Int), b < lo → lo ≤ hi →
    above (js ++ [[(a, b)]]) lo < n → inner (js ++ [[(a, b)]]) n lo hi = some none
  | 0, _, _, _, _, h => by omega
  | n + 1, lo, hi, h1, h2, h3 => by
    rw [inner]
    rcases pass_end (a := a) js lo hi hn h1 (by omega) with e | ⟨l, h, e, b1, b2, ⟨s, hs, b3⟩, b4⟩
    · rw [e]
    · rw [e]
      have := above_lt (js := js ++ [[(a, b)]]) (List.mem_append_left _ hs) b3 (b4 h2)
      exact inner_end hn n l h b1 b2 (by omega)

theorem inner_end' {a b : Int} {js : List (List Rng)} (hn : ∀ s ∈ js, Norm s) {n : Nat} {lo : Int} (h : b < lo) (hc : (js ++ [[(a, b)]]).flatten.length + 1 < n) :
    inner (js ++ [[(a, b)]]) n lo b = some none := by
  cases n with
  | zero => omega
  | succ n =>
    rw [inner]
    rcases pass_end (a := a) js lo b hn h (Int.le_refl _) with e | ⟨l, h, e, b1, b2, ⟨s, hs, b3⟩, -⟩
    · rw [e]
    · rw [e]
      refine inner_end hn n l h b1 b2 (Nat.lt_of_le_of_lt List.countP_le_length (by omega))

theorem outer_ok {a b : Int} {js : List (List Rng)} (hn : ∀ s ∈ js, Norm s) (hab : a ≤ b) {m : Nat} (hm : (js ++ [[(a, b)]]).flatten.length + 1 < m) :
    ∀ (n : Nat) (lo : Int), (b + 2 - lo).toNat < n →
      ∃ l, outer (js ++ [[(a, b)]]) b m n lo = some l ∧ Norm l ∧ (∀ r ∈ l, lo ≤ r.1) ∧
        ∀ x, In x l ↔ lo ≤ x ∧ ∀ s ∈ js ++ [[(a, b)]], In x s
  | 0, _, h => by omega
  | n + 1, lo, h => by
    have hn' : ∀ s ∈ js ++ [[(a, b)]], Norm s := by
      intro s hs
      rcases List.mem_append.1 hs with hs | hs
      · exact hn s hs
      · rw [List.mem_singleton.1 hs]
        exact ⟨fun r hr => by rw [List.mem_singleton.1 hr]; exact hab, List.pairwise_singleton _ _⟩
    have hlast : ∀ x, (∀ s ∈ js ++ [[(a, b)]], In x s) → x ≤ b := by
      intro x hx
      obtain ⟨r, hr, h1, h2⟩ := hx [(a, b)] (by simp)
      rw [List.mem_singleton.1 hr] at h2
      exact h2
    rw [outer]
    by_cases hlo : lo ≤ b
    · have hg : ∃ s ∈ js ++ [[(a, b)]], ¬ In (b + 1) s := ⟨[(a, b)], by simp, by
        rintro ⟨r, hr, h1, h2⟩
        rw [List.mem_singleton.1 hr] at h2
        simp only at h2
        omega⟩
      rcases inner_ok hn' m lo b hlo (Nat.lt_of_le_of_lt List.countP_le_length (by omega)) hg with ⟨e, e2⟩ | ⟨l, h', e, b1, b2, b3, b4, b5⟩
      · rw [e]
        refine ⟨[], rfl, ⟨by simp, .nil⟩, by simp, fun x => ⟨fun hx => by simp [In] at hx, fun ⟨h1, h2⟩ => ?_⟩⟩
        obtain ⟨s, hs, hc⟩ := e2 x h1
        exact absurd (h2 s hs) hc
      · rw [e]
        have hb := hlast h' (b3 h' b2 (Int.le_refl _))
        obtain ⟨t, t1, t2, t3, t4⟩ := outer_ok hn hab hm n (h' + 2) (by omega)
        refine ⟨(l, h') :: t, by simp [t1], ⟨?_, ?_⟩, ?_, ?_⟩
        · intro r hr
          rcases List.mem_cons.1 hr with rfl | hr
          · exact b2
          · exact t2.1 r hr
        · exact List.pairwise_cons.2 ⟨fun q hq => by have := t3 q hq; simp only; omega, t2.2⟩
        · intro r hr
          rcases List.mem_cons.1 hr with rfl | hr
          · exact b1
          · have := t3 r hr; omega
        · intro x
          rw [In.cons, t4]
          constructor
          · rintro (⟨h1, h2⟩ | ⟨h1, h2⟩)
            · simp only at h1 h2
              exact ⟨by omega, b3 x h1 h2⟩
            · exact ⟨by omega, h2⟩
          · rintro ⟨h1, h2⟩
            have hl := b4 x h1 h2
            by_cases hx : x ≤ h'
            · exact .inl ⟨hl, hx⟩
            · refine .inr ⟨?_, h2⟩
              obtain ⟨s, hs, hc⟩ := b5
              have : x ≠ h' + 1 := by rintro rfl; exact hc (h2 s hs)
              omega
    · rw [inner_end' hn (by omega) hm]
      refine ⟨[], rfl, ⟨by simp, .nil⟩, by simp, fun x => ⟨fun hx => by simp [In] at hx, fun ⟨h1, h2⟩ => ?_⟩⟩
      have := hlast x h2
      omega

/-- **C63** (part). If the first set is a range, `array_intersect` returns the intersection. What is missing: other first sets, see
`C63_array_intersect_fails`. -/
theorem _root_.MZ.C63_array_intersect_partial (a b : Int) (al : List (List Rng)) (hab : a ≤ b) (hn : ∀ s ∈ al, Norm s) :
    ∃ n l, arrayIntersect n ([(a, b)] :: al) = some (.ok l) ∧ Norm l ∧ ∀ x, In x l ↔ ∀ s ∈ [(a, b)] :: al, In x s := by
  have hn' : ∀ s ∈ al.reverse, Norm s := fun s hs => hn s (List.mem_reverse.1 hs)
  obtain ⟨l, h1, h2, -, h3⟩ := outer_ok hn' hab (m := (al.reverse ++ [[(a, b)]]).flatten.length + (b + 2 - a).toNat + 2) (by omega)
    ((al.reverse ++ [[(a, b)]]).flatten.length + (b + 2 - a).toNat + 2) a (by omega)
  refine ⟨_, l, by show Option.map Res.ok (outer ([(a, b)] :: al).reverse b _ _ a) = _; rw [List.reverse_cons, h1]; rfl, h2, fun x => ?_⟩
  rw [h3]
  constructor
  · rintro ⟨-, h⟩ s hs
    refine h s ?_
    rcases List.mem_cons.1 hs with rfl | hs
    · simp
    · simp [hs]
  · intro h
    obtain ⟨r, hr, e1, e2⟩ := h _ (.head _)
    rw [List.mem_singleton.1 hr] at e1
    refine ⟨e1, fun s hs => h s ?_⟩
    rcases List.mem_append.1 hs with hs | hs
    · exact .tail _ (List.mem_reverse.1 hs)
    · rw [List.mem_singleton.1 hs]; exact .head _

example : arrayIntersect 9 [[(1, 20)], [(3, 5), (7, 30)], [(0, 4), (9, 9), (12, 40)]] = some (.ok [(3, 4), (9, 9), (12, 20)]) := by decide

/-- **C63** (the full statement fails). `array_intersect([{1,3,5}, 3..5])` runs for ever. -/
theorem _root_.MZ.C63_array_intersect_fails : (∀ s ∈ [[((1 : Int), (1 : Int)), (3, 3), (5, 5)], [(3, 5)]], Norm s) ∧
    ∀ n, arrayIntersect n [[(1, 1), (3, 3), (5, 5)], [(3, 5)]] = none := by
  constructor
  · intro s hs
    simp only [List.mem_cons, List.not_mem_nil, or_false] at hs
    rcases hs with rfl | rfl
    · exact ⟨by decide, by decide⟩
    · exact ⟨by decide, by decide⟩
  · intro n
    have hp1 : ∀ lo, lo = 1 ∨ lo = 5 → pass [[(3, 5)], [(1, 1), (3, 3), (5, 5)]] lo 1 = .restart 3 5 := by
      rintro lo (rfl | rfl) <;> decide
    have hp2 : pass [[(3, 5)], [(1, 1), (3, 3), (5, 5)]] 3 5 = .next 3 3 := by decide
    have hin : ∀ m lo, lo = 1 ∨ lo = 5 → inner [[(3, 5)], [(1, 1), (3, 3), (5, 5)]] m lo 1 = none ∨
        inner [[(3, 5)], [(1, 1), (3, 3), (5, 5)]] m lo 1 = some (some (3, 3)) := by
      intro m lo h
      match m with
      | 0 => exact .inl rfl
      | 1 => left; rw [inner, hp1 lo h]; rfl
      | k + 2 => right; rw [inner, hp1 lo h]; simp only; rw [inner, hp2]
    have hout : ∀ m k lo, lo = 1 ∨ lo = 5 → outer [[(3, 5)], [(1, 1), (3, 3), (5, 5)]] 1 m k lo = none := by
      intro m k
      induction k with
      | zero => intros; rfl
      | succ k ih =>
        intro lo h
        rw [outer]
        rcases hin m lo h with e | e
        · rw [e]
        · rw [e]
          simp only
          rw [ih (3 + 2) (.inr (by omega))]
          rfl
    show Option.map Res.ok (outer [[(3, 5)], [(1, 1), (3, 3), (5, 5)]] 1 n n 1) = none
    rw [hout n n 1 (.inl rfl)]
    rfl

end Builtin
end MZ
