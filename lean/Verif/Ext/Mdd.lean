import Verif.Ext.Auto

/-! # Lemmas on decision diagrams -/

namespace MZ.Ext
open MZ.Globals MZ.LexOrd MZ.LexOrd.Spec MZ.Ext.Spec

/-- The level of a node, that of the true node included. -/
def lv (m : Diagram) (L n : Int) : Int := if n = 0 then L + 1 else m.level n

/-- The elements from index `i` on. -/
def sfx (xs : Arr Int) (i : Int) : List Int := elems ⟨i, xs.hi, xs.val⟩

/-- Nodes reached from the root along the values of `xs`. -/
inductive Reach (m : Diagram) (xs : Arr Int) : Int → Prop
  | root : Reach m xs 1
  | step (e : Int) : 1 ≤ e → e ≤ m.E → Reach m xs (m.src e) → inLabel m xs e → Reach m xs (m.dst e)

/-- The rest of the sequence leads from a node to the true node. -/
def Leads (m : Diagram) (xs : Arr Int) (n : Int) : Prop := m.Path n (sfx xs (lv m xs.len n))

/-- The nodes on the paths that spell `xs`. -/
def On (m : Diagram) (xs : Arr Int) (n : Int) : Prop := Reach m xs n ∧ Leads m xs n

/-- The edges on these paths. -/
def OnE (m : Diagram) (xs : Arr Int) (e : Int) : Prop := On m xs (m.src e) ∧ inLabel m xs e ∧ On m xs (m.dst e)

variable {m : Diagram} {xs : Arr Int}

theorem sfx_cons {i : Int} (h : i ≤ xs.hi) : sfx xs i = xs i :: sfx xs (i + 1) := elems_cons _ _ _ h

theorem sfx_nil {i : Int} (h : xs.hi < i) : sfx xs i = [] := elems_done _ _ _ h

theorem sfx_one (h : xs.lo = 1) : sfx xs 1 = elems xs := by unfold sfx; rw [← h]

theorem len_hi (h1 : xs.lo = 1) (h2 : 0 ≤ xs.hi) : xs.len = xs.hi := by
  rw [len_eq _ (by omega)]; omega

section
variable (hl : m.Layered xs.len) (h1 : xs.lo = 1) (h2 : 0 ≤ xs.hi)
include hl

theorem src_lv {e : Int} (a : 1 ≤ e) (b : e ≤ m.E) : lv m xs.len (m.src e) = m.level (m.src e) := by
  have := hl.src e a b
  exact if_neg (by omega)

theorem dst_lv {e : Int} (a : 1 ≤ e) (b : e ≤ m.E) : lv m xs.len (m.dst e) = m.level (m.src e) + 1 :=
  (hl.step e a b).symm

theorem root_lv : lv m xs.len 1 = 1 := hl.root.2

theorem leads_of {e : Int} (a : 1 ≤ e) (b : e ≤ m.E) (hin : inLabel m xs e) (h : Leads m xs (m.dst e)) :
    Leads m xs (m.src e) := by
  unfold Leads at h ⊢
  have hi := (Arr.mem_idx _ _).1 hin.1
  rw [src_lv hl a b, sfx_cons hi.2]
  rw [dst_lv hl a b] at h
  exact ⟨e, a, b, rfl, hin.2, h⟩

include h1 h2 in
theorem leads_next {n : Int} (hn : n ≠ 0) (h : Leads m xs n) : ∃ e, 1 ≤ e ∧ e ≤ m.E ∧ m.src e = n ∧
    (m.level n ≤ xs.hi) ∧ xs (m.level n) ∈ m.label e ∧ Leads m xs (m.dst e) := by
  unfold Leads at h
  by_cases c : lv m xs.len n ≤ xs.hi
  · rw [sfx_cons c] at h
    obtain ⟨e, a, b, he, hlab, hp⟩ := h
    have e1 : lv m xs.len n = m.level n := if_neg hn
    rw [e1] at hlab hp c
    refine ⟨e, a, b, he, c, hlab, ?_⟩
    unfold Leads
    rw [dst_lv hl a b, he]
    exact hp
  · rw [sfx_nil (by omega)] at h
    exact absurd h hn

include h1 h2 in
theorem reach_pos {n : Int} (h : Reach m xs n) : 1 ≤ lv m xs.len n ∧ (n ≠ 1 → 2 ≤ lv m xs.len n) ∧ 0 ≤ n ∧ n ≤ m.N := by
  cases h with
  | root => rw [root_lv hl]; have := hl.root; omega
  | step e a b hr hin =>
    have hi := (Arr.mem_idx _ _).1 hin.1
    rw [dst_lv hl a b]
    have := hl.dst e a b
    omega

theorem leads_root {n : Int} (h : Reach m xs n) : Leads m xs n → Leads m xs 1 := by
  induction h with
  | root => exact id
  | step e a b _ hin ih => exact fun h => ih (leads_of hl a b hin h)

include h1 h2 in
theorem leads_zero : Leads m xs 0 := by
  unfold Leads lv
  rw [if_pos rfl, sfx_nil (by rw [len_hi h1 h2]; omega)]
  rfl

include h1 h2 in
theorem reach_inv {i : Int} (hi1 : 1 ≤ i) : ∀ n, Reach m xs n → lv m xs.len n = i → n ≠ 0 → i ≤ xs.hi →
    Leads m xs n → ∃ e, 1 ≤ e ∧ e ≤ m.E ∧ m.src e = n ∧ inLabel m xs e ∧ Reach m xs (m.dst e) ∧ Leads m xs (m.dst e) := by
  intro n hr hlv hn hi hL
  obtain ⟨e, a, b, he, c, hlab, hL'⟩ := leads_next hl h1 h2 hn hL
  have e1 : lv m xs.len n = m.level n := if_neg hn
  have hin : inLabel m xs e := by
    refine ⟨?_, by rw [he]; exact hlab⟩
    rw [Arr.mem_idx, he]; omega
  exact ⟨e, a, b, he, hin, Reach.step e a b (he ▸ hr) hin, hL'⟩

include h1 h2 in
theorem on_next {n : Int} (hn : n ≠ 0) (h : On m xs n) : ∃ e, 1 ≤ e ∧ e ≤ m.E ∧ m.src e = n ∧ OnE m xs e := by
  obtain ⟨e, a, b, he, c, hlab, hL'⟩ := leads_next hl h1 h2 hn h.2
  have p := reach_pos hl h1 h2 h.1
  have e1 : lv m xs.len n = m.level n := if_neg hn
  have hin : inLabel m xs e := by
    refine ⟨?_, by rw [he]; exact hlab⟩
    rw [Arr.mem_idx, he]; omega
  exact ⟨e, a, b, he, he ▸ h, hin, Reach.step e a b (he ▸ h.1) hin, hL'⟩

include h1 h2 in
/-- Some node of each level is on a path. -/
theorem on_level (h : Leads m xs 1) (k : Nat) : (k : Int) < xs.hi → ∃ n, 1 ≤ n ∧ n ≤ m.N ∧ m.level n = k + 1 ∧ On m xs n := by
  induction k with
  | zero =>
    intro _
    exact ⟨1, by omega, hl.root.1, by rw [hl.root.2]; simp, Reach.root, h⟩
  | succ k ih =>
    intro hk
    obtain ⟨n, a, b, c, d⟩ := ih (by omega)
    obtain ⟨e, q1, q2, q3, q4⟩ := on_next hl h1 h2 (by omega) d
    have hd := hl.dst e q1 q2
    have hs := hl.step e q1 q2
    have hz : m.dst e ≠ 0 := by
      intro hz
      rw [if_pos hz, q3, c, len_hi h1 h2] at hs
      push_cast at hk hs
      omega
    rw [if_neg hz, q3, c] at hs
    exact ⟨m.dst e, by omega, hd.2, by push_cast; omega, q4.2.2⟩

include h1 h2 in
/-- The true node is on a path. -/
theorem on_zero (h : Leads m xs 1) (hL : 1 ≤ xs.hi) : ∃ e, 1 ≤ e ∧ e ≤ m.E ∧ m.dst e = 0 ∧ OnE m xs e := by
  obtain ⟨n, a, b, c, d⟩ := on_level hl h1 h2 h (xs.hi - 1).toNat (by omega)
  obtain ⟨e, q1, q2, q3, q4⟩ := on_next hl h1 h2 (by omega) d
  refine ⟨e, q1, q2, ?_, q4⟩
  have := q4.2.2.2
  by_contra hz
  have hs := hl.step e q1 q2
  rw [if_neg hz, q3, c] at hs
  obtain ⟨_, _, _, _, h5, _⟩ := leads_next hl h1 h2 hz this
  omega

end

section
variable (hl : m.Layered xs.len) (hd : m.Deterministic) (h1 : xs.lo = 1) (h2 : 0 ≤ xs.hi)
include hl hd h1 h2

/-- A deterministic diagram reaches at most one node of each level. -/
theorem reach_unique (k : Nat) : ∀ n n', Reach m xs n → Reach m xs n' → lv m xs.len n = (k : Int) →
    lv m xs.len n' = (k : Int) → n = n' := by
  induction k with
  | zero =>
    intro n n' r r' e e'
    have := reach_pos hl h1 h2 r
    omega
  | succ k ih =>
    intro n n' r r' e e'
    cases r with
    | root =>
      have p := reach_pos hl h1 h2 r'
      rw [root_lv hl] at e
      by_contra c
      have := p.2.1 (fun h => c h.symm)
      omega
    | step f a b hr hin =>
      cases r' with
      | root =>
        have p := reach_pos hl h1 h2 (Reach.step f a b hr hin)
        rw [root_lv hl] at e'
        by_contra c
        have := p.2.1 c
        omega
      | step f' a' b' hr' hin' =>
        rw [dst_lv hl a b] at e
        rw [dst_lv hl a' b'] at e'
        have hs : m.src f = m.src f' := by
          apply ih _ _ hr hr'
          · rw [src_lv hl a b]; push_cast at e; omega
          · rw [src_lv hl a' b']; push_cast at e'; omega
        have := hd f f' a b a' b' hs ⟨xs (m.level (m.src f)), hin.2, by rw [hs]; exact hin'.2⟩
        rw [this]

/-- In a deterministic diagram every node that is reached is on the path, if there is one. -/
theorem reach_on {n : Int} (h : Leads m xs 1) (r : Reach m xs n) : Leads m xs n := by
  induction r with
  | root => exact h
  | step e a b hr hin ih =>
    have hs := hl.src e a b
    obtain ⟨e', a', b', he', c, hlab, hL⟩ := leads_next hl h1 h2 (by omega) ih
    have : e = e' := hd e e' a b a' b' he'.symm ⟨xs (m.level (m.src e)), hin.2, hlab⟩
    rw [this]; exact hL

theorem at_most_one (bn : Int → Prop) (hbn : ∀ n, 1 ≤ n → n ≤ m.N → bn n → Reach m xs n) (i : Int) :
    atLevel m bn i ≤ 1 := by
  classical
  unfold atLevel
  have : (∑ n ∈ (Finset.Icc 1 m.N).filter (fun n => m.level n = i), b2i (bn n)) =
      (((((Finset.Icc 1 m.N).filter (fun n => m.level n = i))).filter bn).card : Int) := by
    rw [← sum_b2i]
  rw [show (∑ n ∈ (Finset.Icc 1 m.N).filter (fun n => m.level n = i), @b2i (bn n) (Classical.propDecidable _)) =
    ∑ n ∈ (Finset.Icc 1 m.N).filter (fun n => m.level n = i), b2i (bn n) from by
      apply Finset.sum_congr rfl; intro n _; unfold b2i; congr, this]
  have hc : ((((Finset.Icc 1 m.N).filter (fun n => m.level n = i))).filter bn).card ≤ 1 := by
    rw [Finset.card_le_one]
    intro a ha b hb
    simp only [Finset.mem_filter, Finset.mem_Icc] at ha hb
    have ra := hbn a ha.1.1.1 ha.1.1.2 ha.2
    have rb := hbn b hb.1.1.1 hb.1.1.2 hb.2
    have pa := reach_pos hl h1 h2 ra
    have ea : lv m xs.len a = i := by unfold lv; rw [if_neg (by omega)]; exact ha.1.2
    have eb : lv m xs.len b = i := by unfold lv; rw [if_neg (by omega)]; exact hb.1.2
    exact reach_unique hl hd h1 h2 i.toNat a b ra rb (by omega) (by omega)
  exact_mod_cast hc

end

theorem at_least_one {bn : Int → Prop} {i n : Int} (a : 1 ≤ n) (b : n ≤ m.N) (c : m.level n = i) (d : bn n) :
    1 ≤ atLevel m bn i := by
  classical
  unfold atLevel
  have hmem : n ∈ (Finset.Icc 1 m.N).filter (fun n => m.level n = i) := by
    simp only [Finset.mem_filter, Finset.mem_Icc]; exact ⟨⟨a, b⟩, c⟩
  calc (1 : Int) = b2i (bn n) := (b2i_true d).symm
    _ ≤ _ := Finset.single_le_sum (f := fun n => b2i (bn n)) (fun n _ => b2i_nonneg _) hmem

section
variable (hl : m.Layered xs.len) (h1 : xs.lo = 1) (h2 : 0 ≤ xs.hi)
include hl h1 h2

/-- True nodes and edges give a path. -/
theorem path_of (bn be : Int → Prop) (ho : mddOut m bn be) (he : ∀ e, 1 ≤ e → e ≤ m.E → be e → bn (m.dst e))
    (hlab : mddLabel m xs be) (k : Nat) : ∀ n, 0 ≤ n → n ≤ m.N → bn n → xs.hi + 1 - lv m xs.len n = k → Leads m xs n := by
  induction k with
  | zero =>
    intro n a b c d
    by_cases hz : n = 0
    · rw [hz]; exact leads_zero hl h1 h2
    · exfalso
      obtain ⟨e, q1, q2, q3, q4⟩ := ho n (by omega) b c
      have q5 := (Arr.mem_idx _ _).1 (hlab e q1 q2 q4).1
      rw [q3] at q5
      rw [show lv m xs.len n = m.level n from if_neg hz] at d
      push_cast at d
      omega
  | succ k ih =>
    intro n a b c d
    by_cases hz : n = 0
    · rw [hz]; exact leads_zero hl h1 h2
    · obtain ⟨e, q1, q2, q3, q4⟩ := ho n (by omega) b c
      rw [← q3]
      have hd := hl.dst e q1 q2
      apply leads_of hl q1 q2 (hlab e q1 q2 q4)
      apply ih _ hd.1 hd.2 (he e q1 q2 q4)
      rw [dst_lv hl q1 q2, q3]
      rw [show lv m xs.len n = m.level n from if_neg hz] at d
      push_cast at d
      omega

theorem path_of_root (bn be : Int → Prop) (hr : bn 1) (ho : mddOut m bn be)
    (he : ∀ e, 1 ≤ e → e ≤ m.E → be e → bn (m.dst e)) (hlab : mddLabel m xs be) : Leads m xs 1 :=
  path_of hl h1 h2 bn be ho he hlab xs.hi.toNat 1 (by omega) hl.root.1 hr (by rw [root_lv hl]; omega)

theorem leads_one : Leads m xs 1 ↔ m.Path 1 (elems xs) := by
  unfold Leads
  rw [root_lv hl, sfx_one h1]

theorem hi_pos (h : Leads m xs 1) : 1 ≤ xs.hi := by
  obtain ⟨e, _, _, _, h5, _⟩ := leads_next hl h1 h2 (by omega) h
  rw [hl.root.2] at h5
  exact h5

/-- The nodes and edges on the paths satisfy the constraints that do not depend on determinism. -/
theorem on_sat (h : Leads m xs 1) (D : Finset Int) : On m xs 0 ∧ On m xs 1 ∧ mddOut m (On m xs) (OnE m xs) ∧
    mddEnds m (On m xs) (OnE m xs) ∧ mddLabel m xs (OnE m xs) ∧ mddInTrue m (OnE m xs) ∧
    mddIn m (On m xs) (OnE m xs) ∧ mddSupport m xs (OnE m xs) D := by
  have hp := hi_pos hl h1 h2 h
  have hz := on_zero hl h1 h2 h hp
  refine ⟨?_, ⟨Reach.root, h⟩, ?_, ?_, ?_, hz, ?_, ?_⟩
  · obtain ⟨e, _, _, q, r⟩ := hz
    rw [← q]; exact r.2.2
  · intro n a b c; exact on_next hl h1 h2 (by omega) c
  · intro e a b; exact ⟨fun h => h.1, fun h => h.2.2⟩
  · intro e a b h; exact h.2.1
  · rintro n a b ⟨r, l⟩
    cases r with
    | root => omega
    | step e q1 q2 hr hin =>
      exact ⟨e, q1, q2, rfl, ⟨hr, leads_of hl q1 q2 hin l⟩, hin, Reach.step e q1 q2 hr hin, l⟩
  · intro i a b d _ hd
    rw [len_hi h1 h2] at b
    obtain ⟨n, q1, q2, q3, q4⟩ := on_level hl h1 h2 h (i - 1).toNat (by omega)
    obtain ⟨e, r1, r2, r3, r4⟩ := on_next hl h1 h2 (by omega) q4
    have e1 : m.level (m.src e) = i := by rw [r3, q3]; omega
    refine ⟨e, r1, r2, ⟨e1, ?_⟩, r4⟩
    have := r4.2.1.2
    rw [e1, hd.2] at this
    exact this

theorem fznMddNondet_iff (D : Finset Int) : fznMddNondet m xs D ↔ m.Path 1 (elems xs) := by
  rw [← leads_one hl h1 h2]
  constructor
  · rintro ⟨bn, be, _, hr, ho, he, hlab, _⟩
    exact path_of_root hl h1 h2 bn be hr ho (fun e a b => (he e a b).2) hlab
  · intro h
    exact ⟨_, _, on_sat hl h1 h2 h D⟩

theorem on_taken (hd : m.Deterministic) (h : Leads m xs 1) : mddTaken m xs (On m xs) (OnE m xs) := by
  rintro e a b ⟨h3, h4⟩
  have r := Reach.step e a b h3.1 h4
  exact ⟨h3, h4, r, reach_on hl hd h1 h2 h r⟩

theorem on_one (hd : m.Deterministic) (h : Leads m xs 1) (i : Int) (a : 1 ≤ i) (b : i ≤ xs.len) :
    atLevel m (On m xs) i = 1 := by
  have q1 := at_most_one hl hd h1 h2 (On m xs) (fun n _ _ h => h.1) i
  rw [len_hi h1 h2] at b
  obtain ⟨n, r1, r2, r3, r4⟩ := on_level hl h1 h2 h (i - 1).toNat (by omega)
  have q2 := at_least_one (m := m) (i := i) r1 r2 (by omega) r4
  omega

theorem fznMdd_iff (hd : m.Deterministic) (D : Finset Int) : fznMdd m xs D ↔ m.Path 1 (elems xs) := by
  rw [← leads_one hl h1 h2]
  constructor
  · rintro ⟨bn, be, _, hr, ho, he, hlab, _⟩
    exact path_of_root hl h1 h2 bn be hr ho (fun e a b => (he e a b).2) hlab
  · intro h
    obtain ⟨a1, a2, a3, a4, a5, a6, a7, a8⟩ := on_sat hl h1 h2 h D
    exact ⟨_, _, a1, a2, a3, a4, a5, on_taken hl h1 h2 hd h, a6, a7, a8, on_one hl h1 h2 hd h⟩

theorem fznMddReif_iff (hd : m.Deterministic) (D : Finset Int) (b : Prop) :
    fznMddReif m xs D b ↔ (b ↔ m.Path 1 (elems xs)) := by
  rw [← leads_one hl h1 h2]
  constructor
  · rintro ⟨bn, be, hb, hr, ho, he, hlab, ht, _⟩
    constructor
    · intro hb'
      apply path_of_root hl h1 h2 bn be hr ?_ (fun e a b => (he e a b).2) hlab
      intro n a c d
      rcases ho n a c d with h | h
      · exact h
      · exact absurd hb' h
    · intro h
      have key : ∀ n, Reach m xs n → bn n := by
        intro n r
        induction r with
        | root => exact hr
        | step e a c _ hin ih => exact (he e a c).2 (ht e a c ⟨ih, hin⟩)
      obtain ⟨e, _, _, q, r⟩ := on_zero hl h1 h2 h (hi_pos hl h1 h2 h)
      exact hb.2 (q ▸ key _ r.2.2.1)
  · intro hb
    by_cases h : Leads m xs 1
    · have hb' := hb.2 h
      obtain ⟨a1, a2, a3, a4, a5, a6, a7, a8⟩ := on_sat hl h1 h2 h D
      refine ⟨_, _, ⟨fun _ => a1, fun _ => hb'⟩, a2, fun n p q r => Or.inl (a3 n p q r), a4, a5,
        on_taken hl h1 h2 hd h, fun _ => a6, a7, ?_, fun i p q => le_of_eq (on_one hl h1 h2 hd h i p q)⟩
      intro i p q d _ hx
      constructor
      · intro n r1 r2 r3 e s1 s2 s3 s4
        refine on_taken hl h1 h2 hd h e s1 s2 ⟨by rw [s3.1]; exact s4, ?_⟩
        unfold inLabel
        rw [s3.1, r3, hx.2]
        exact ⟨hx.1, s3.2⟩
      · intro n r1 r2 r3 r4
        exfalso
        obtain ⟨e, s1, s2, s3, s4⟩ := on_next hl h1 h2 (by omega) r4
        have := s4.2.1.2
        rw [s3, r3.1, hx.2] at this
        exact r3.2 ⟨e, s1, s2, s3, this⟩
    · have hb' : ¬ b := fun c => h (hb.1 c)
      have hz : ¬ Reach m xs 0 := fun r => h (leads_root hl r (leads_zero hl h1 h2))
      refine ⟨Reach m xs, fun e => Reach m xs (m.src e) ∧ inLabel m xs e, ⟨fun c => absurd c hb', fun c => absurd c hz⟩,
        Reach.root, fun _ _ _ _ => Or.inr hb', ?_, fun e _ _ h => h.2, fun e _ _ h => h, fun c => absurd c hz, ?_, ?_,
        fun i _ _ => at_most_one hl hd h1 h2 (Reach m xs) (fun n _ _ h => h) i⟩
      · intro e p q
        exact ⟨fun h => h.1, fun h => Reach.step e p q h.1 h.2⟩
      · intro n p q r
        cases r with
        | root => omega
        | step e q1 q2 hr hin => exact ⟨e, q1, q2, rfl, hr, hin⟩
      · intro i p q d _ hx
        constructor
        · intro n r1 r2 r3 e s1 s2 s3 s4
          refine ⟨by rw [s3.1]; exact s4, ?_⟩
          unfold inLabel
          rw [s3.1, r3, hx.2]
          exact ⟨hx.1, s3.2⟩
        · exact fun _ _ _ _ _ => hb'

end

end MZ.Ext
