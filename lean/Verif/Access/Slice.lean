import Verif.Access.Model
import Verif.Arr.BuiltinProps
/-!
# The slice of an array for its fixed indices
-/
namespace MZ
namespace Access
open Arr

variable {α : Type}

/-! ## Specification -/

/-- The complete index tuple: the fixed indices, and `t` for the variable ones. -/
def merge : List (Option Int) → List Int → List Int
  | [], _ => []
  | some v :: ix, t => v :: merge ix t
  | none :: ix, x :: t => x :: merge ix t
  | none :: ix, [] => 0 :: merge ix []

/-- The fixed indices are in the index sets. -/
def ParIn : List (Option Int) → List (Int × Int) → Prop
  | some v :: ix, p :: D => (p.1 ≤ v ∧ v ≤ p.2) ∧ ParIn ix D
  | none :: ix, _ :: D => ParIn ix D
  | _, _ => True

/-! ## Positions -/

theorem nonparOf_shift : ∀ (ix : List (Option Int)) (i : Nat), nonparOf ix (i + 1) = (nonparOf ix i).map (· + 1)
  | [], i => rfl
  | some v :: ix, i => by simp only [nonparOf]; exact nonparOf_shift ix (i + 1)
  | none :: ix, i => by simp only [nonparOf, List.map_cons]; rw [nonparOf_shift ix (i + 1)]

theorem sub_length : ∀ (ix : List (Option Int)) (D : List (Int × Int)), ix.length = D.length →
    (subDims ix D).length = (nonparOf ix 0).length
  | [], [], _ => rfl
  | [], _ :: _, h => by simp at h
  | _ :: _, [], h => by simp at h
  | some v :: ix, p :: D, h => by
    simp only [subDims, nonparOf]
    rw [nonparOf_shift, List.length_map]
    exact sub_length ix D (by simpa using h)
  | none :: ix, p :: D, h => by
    simp only [subDims, nonparOf, List.length_cons]
    rw [nonparOf_shift, List.length_map]
    rw [sub_length ix D (by simpa using h)]

theorem pos_lemma : ∀ (ix : List (Option Int)) (D : List (Int × Int)) (t : List Int) (k p : Nat), ix.length = D.length →
    t.length = (nonparOf ix 0).length → (nonparOf ix 0)[k]? = some p →
    (merge ix t)[p]? = t[k]? ∧ (∀ v, (merge ix t).set p v = merge ix (t.set k v)) ∧ D[p]? = (subDims ix D)[k]?
  | [], D, t, k, p, _, _, h => by simp [nonparOf] at h
  | _ :: _, [], t, k, p, h, _, _ => by simp at h
  | some v :: ix, q :: D, t, k, p, hl, ht, h => by
    simp only [nonparOf] at h ht
    rw [nonparOf_shift, List.getElem?_map] at h
    rw [nonparOf_shift, List.length_map] at ht
    cases hp : (nonparOf ix 0)[k]? with
    | none => rw [hp] at h; simp at h
    | some p' =>
      rw [hp] at h
      simp only [Option.map_some, Option.some.injEq] at h
      subst h
      obtain ⟨h1, h2, h3⟩ := pos_lemma ix D t k p' (by simpa using hl) ht hp
      refine ⟨by simpa [merge] using h1, ?_, by simpa [subDims] using h3⟩
      intro w
      simp [merge, h2 w]
  | none :: ix, q :: D, t, k, p, hl, ht, h => by
    simp only [nonparOf] at h ht
    rw [nonparOf_shift] at h ht
    simp only [List.length_cons, List.length_map] at ht
    cases t with
    | nil => simp at ht
    | cons x t =>
      simp only [List.length_cons, Nat.add_right_cancel_iff] at ht
      cases k with
      | zero =>
        simp only [List.getElem?_cons_zero, Option.some.injEq] at h
        subst h
        exact ⟨rfl, fun v => rfl, rfl⟩
      | succ k =>
        simp only [List.getElem?_cons_succ, List.getElem?_map] at h
        cases hp : (nonparOf ix 0)[k]? with
        | none => rw [hp] at h; simp at h
        | some p' =>
          rw [hp] at h
          simp only [Option.map_some, Option.some.injEq] at h
          subst h
          obtain ⟨h1, h2, h3⟩ := pos_lemma ix D t k p' (by simpa using hl) ht hp
          refine ⟨by simpa [merge] using h1, ?_, by simpa [subDims] using h3⟩
          intro w
          simp [merge, h2 w]

theorem startIdx_eq : ∀ (ix : List (Option Int)) (D : List (Int × Int)), ix.length = D.length →
    startIdx ix D = merge ix ((subDims ix D).map Prod.fst)
  | [], [], _ => rfl
  | [], _ :: _, h => by simp at h
  | _ :: _, [], h => by simp at h
  | some v :: ix, p :: D, h => by
    simp only [startIdx, subDims, merge]; rw [startIdx_eq ix D (by simpa using h)]
  | none :: ix, p :: D, h => by
    simp only [startIdx, subDims, merge, List.map_cons]; rw [startIdx_eq ix D (by simpa using h)]

theorem merge_length : ∀ (ix : List (Option Int)) (t : List Int), (merge ix t).length = ix.length
  | [], t => rfl
  | some v :: ix, t => by simp [merge, merge_length ix t]
  | none :: ix, x :: t => by simp [merge, merge_length ix t]
  | none :: ix, [] => by simp [merge, merge_length ix []]

theorem inBox_merge : ∀ (ix : List (Option Int)) (D : List (Int × Int)) (t : List Int), ix.length = D.length →
    t.length = (nonparOf ix 0).length → (InBox D (merge ix t) ↔ ParIn ix D ∧ InBox (subDims ix D) t)
  | [], [], t, _, ht => by
    cases t with
    | nil => simp [merge, ParIn, subDims, InBox]
    | cons x t => simp [nonparOf] at ht
  | [], _ :: _, t, h, _ => by simp at h
  | _ :: _, [], t, h, _ => by simp at h
  | some v :: ix, p :: D, t, h, ht => by
    obtain ⟨lo, hi⟩ := p
    simp only [nonparOf] at ht
    rw [nonparOf_shift, List.length_map] at ht
    simp only [merge, ParIn, subDims, InBox]
    rw [inBox_merge ix D t (by simpa using h) ht]
    simp only [and_assoc]
  | none :: ix, p :: D, t, h, ht => by
    obtain ⟨lo, hi⟩ := p
    simp only [nonparOf] at ht
    rw [nonparOf_shift] at ht
    simp only [List.length_cons, List.length_map] at ht
    cases t with
    | nil => simp at ht
    | cons x t =>
      simp only [merge, ParIn, subDims, InBox]
      rw [inBox_merge ix D t (by simpa using h) (by simpa using ht)]
      constructor
      · rintro ⟨a, b, c, d⟩; exact ⟨c, a, b, d⟩
      · rintro ⟨a, b, c, d⟩; exact ⟨b, c, a, d⟩

/-! ## Enumeration in row-major order -/

/-- All index tuples in row-major order. -/
def enum : List (Int × Int) → List (List Int)
  | [] => [[]]
  | p :: S => (upFrom p.1 (p.2 - p.1 + 1).toNat).flatMap fun x => (enum S).map (x :: ·)

theorem upFrom_length : ∀ (n : Nat) (lo : Int), (upFrom lo n).length = n
  | 0, lo => rfl
  | n + 1, lo => by simp [upFrom, upFrom_length n]

theorem enum_length : ∀ S : List (Int × Int), ((enum S).length : Int) = count S
  | [] => rfl
  | p :: S => by
    obtain ⟨lo, hi⟩ := p
    have : ∀ (n : Nat) (lo : Int), (((upFrom lo n).flatMap fun x => (enum S).map (x :: ·)).length : Int) = n * (enum S).length := by
      intro n
      induction n with
      | zero => intro lo; simp [upFrom]
      | succ n ih =>
        intro lo
        simp only [upFrom, List.flatMap_cons, List.length_append, List.length_map, Nat.cast_add, ih]
        push_cast; ring
    simp only [enum, count]
    rw [this, enum_length S]
    congr 1
    omega

theorem flatMap_get (L : List (List Int)) : ∀ (n : Nat) (lo x : Int) (k : Nat) (u : List Int), lo ≤ x → x < lo + n →
    L[k]? = some u → ((upFrom lo n).flatMap fun x => L.map (x :: ·))[(x - lo).toNat * L.length + k]? = some (x :: u)
  | 0, lo, x, k, u, h1, h2, h => by simp at h2; omega
  | n + 1, lo, x, k, u, h1, h2, h => by
    have hk : k < L.length := by
      rcases Nat.lt_or_ge k L.length with h' | h'
      · exact h'
      · rw [List.getElem?_eq_none h'] at h; cases h
    simp only [upFrom, List.flatMap_cons]
    by_cases he : x = lo
    · subst he
      rw [List.getElem?_append_left (by simpa using hk)]
      simp [h]
    · have hpos : (x - lo).toNat = (x - (lo + 1)).toNat + 1 := by omega
      rw [List.getElem?_append_right (by rw [hpos, List.length_map]; nlinarith [Nat.zero_le ((x - (lo + 1)).toNat * L.length)])]
      have := flatMap_get L n (lo + 1) x k u (by omega) (by push_cast at h2; omega) h
      rw [← this]
      congr 1
      rw [hpos, List.length_map, Nat.add_mul, Nat.one_mul]
      omega

theorem enum_rank : ∀ (S : List (Int × Int)) (u : List Int), InBox S u → (enum S)[(rank S u).toNat]? = some u
  | [], [], _ => rfl
  | [], _ :: _, h => by simp [InBox] at h
  | _ :: _, [], h => by simp [InBox] at h
  | (lo, hi) :: S, x :: u, h => by
    obtain ⟨h1, h2, h3⟩ := h
    have ih := enum_rank S u h3
    obtain ⟨r1, r2⟩ := rank_bounds h3
    have hl := enum_length S
    simp only [enum, rank]
    have := flatMap_get (enum S) (hi - lo + 1).toNat lo x _ u h1 (by omega) ih
    rw [← this]
    congr 1
    have e : (((x - lo).toNat * (enum S).length + (rank S u).toNat : Nat) : Int) = (x - lo) * count S + rank S u := by
      push_cast
      rw [hl, Int.toNat_of_nonneg (by omega), Int.toNat_of_nonneg r1]
    omega

/-! ## The loop -/

section
variable (acc : List Int → Res (Option α)) (D : List (Int × Int)) (ix : List (Option Int))

/-- The stack with the numbers below `k`. -/
def stackOf (k : Nat) : List Nat := (List.range k).reverse

theorem stackOf_succ (k : Nat) : stackOf (k + 1) = k :: stackOf k := by
  simp [stackOf, List.range_succ]

theorem stackOf_push (k m : Nat) (h : k ≤ m) : (List.range' k (m - k)).reverse ++ stackOf k = stackOf m := by
  unfold stackOf
  rw [← List.reverse_append]
  congr 1
  rw [List.range_eq_range', List.range_eq_range']
  have := List.range'_append (s := 0) (m := k) (n := m - k) (step := 1)
  simp only [Nat.one_mul, Nat.zero_add] at this
  rw [this]
  congr 1
  omega

/-- One state leads to another. -/
def Runs (s s' : St α) : Prop :=
  ∃ n, ∀ fuel, loop acc D (nonparOf ix 0) (fuel + n) s = loop acc D (nonparOf ix 0) fuel s'

theorem Runs.trans {s s' s'' : St α} (h : Runs acc D ix s s') (h' : Runs acc D ix s' s'') : Runs acc D ix s s'' := by
  obtain ⟨n, hn⟩ := h
  obtain ⟨n', hn'⟩ := h'
  refine ⟨n' + n, fun fuel => ?_⟩
  rw [← Nat.add_assoc, hn, hn']

theorem inner_ok (g : List Int → α) (p : Nat) (base : List Int → List Int) (hset : ∀ (l : List Int) (x : Int), (base l).set p x = base [x]) :
    ∀ (n : Nat) (i : Int) (l : List Int) (es : List α),
    (∀ x, i ≤ x → x < i + n → acc (base [x]) = .ok (some (g (base [x])))) →
    ∃ l', inner acc p i n (base l, es) = .ok (some (base l', es ++ (upFrom i n).map fun x => g (base [x])))
  | 0, i, l, es, _ => ⟨l, by simp [inner, upFrom]⟩
  | n + 1, i, l, es, h => by
    have h0 := h i (le_refl _) (by push_cast; omega)
    obtain ⟨l', hl'⟩ := inner_ok g p base hset n (i + 1) [i] (es ++ [g (base [i])])
      (fun x h1 h2 => h x (by omega) (by push_cast; omega))
    refine ⟨l', ?_⟩
    simp only [inner, hset, h0]
    rw [hl']
    simp [upFrom]

end

variable {acc : List Int → Res (Option α)} {D : List (Int × Int)} {ix : List (Option Int)}

theorem step_last (g : List Int → α) (hl : ix.length = D.length) {m : Nat} (hm : (subDims ix D).length = m + 1)
    (t : List Int) (ht : t.length = m + 1) (hpre : InBox ((subDims ix D).take m) (t.take m))
    (hacc : ∀ u, InBox (subDims ix D) u → acc (merge ix u) = .ok (some (g u))) (es : List α) :
    ∃ t', t'.length = m + 1 ∧ t'.take m = t.take m ∧
      Runs acc D ix ⟨stackOf (m + 1), merge ix t, es⟩
        ⟨stackOf m, merge ix t', es ++ (enum ((subDims ix D).drop m)).map fun u => g (t.take m ++ u)⟩ := by
  have hnl := sub_length ix D hl
  have hnp : m < (nonparOf ix 0).length := by omega
  obtain ⟨p, hp⟩ : ∃ p, (nonparOf ix 0)[m]? = some p := ⟨_, List.getElem?_eq_getElem hnp⟩
  obtain ⟨q, hq⟩ : ∃ q, (subDims ix D)[m]? = some q := ⟨_, List.getElem?_eq_getElem (by omega)⟩
  have tlen : (t.take m).length = m := by simp [ht]
  have tsplit : ∃ y, t = t.take m ++ [y] := by
    refine ⟨t[m]'(by omega), ?_⟩
    rw [← List.take_succ_eq_append_getElem (by omega), List.take_of_length_le (by omega)]
  obtain ⟨y, hy⟩ := tsplit
  have ssplit : subDims ix D = (subDims ix D).take m ++ [q] := by
    have hqe : q = (subDims ix D)[m]'(by omega) := by
      rw [List.getElem?_eq_getElem (by omega)] at hq; exact (Option.some.inj hq).symm
    rw [hqe, ← List.take_succ_eq_append_getElem (by omega), List.take_of_length_le (by omega)]
  have hdrop : (subDims ix D).drop m = [q] := by
    conv_lhs => rw [ssplit]
    rw [List.drop_append_of_le_length (by simp; omega)]
    simp
  let base : List Int → List Int := fun l => merge ix (t.take m ++ [l.headD y])
  have hlen : ∀ l : List Int, (t.take m ++ [l.headD y]).length = (nonparOf ix 0).length := by
    intro l; cases l <;> simp <;> omega
  have hset : ∀ (l : List Int) (x : Int), (base l).set p x = base [x] := by
    intro l x
    have := (pos_lemma ix D _ m p hl (hlen l) hp).2.1 x
    simp only [base]
    rw [this]
    congr 1
    rw [List.set_append_right _ _ (by simp)]
    cases l <;> simp [tlen, show min m t.length = m by omega]
  have h0 : merge ix t = base [] := by
    show merge ix t = merge ix (t.take m ++ [y])
    rw [← hy]
  have hD : D[p]? = some q := by
    rw [(pos_lemma ix D _ m p hl (hlen []) hp).2.2, hq]
  have hv : (merge ix t)[p]? = some y := by
    rw [(pos_lemma ix D t m p hl (by omega) hp).1, hy, List.getElem?_append_right (by omega)]
    simp [tlen]
  let g' : List Int → α := fun l => g (t.take m ++ [l[p]?.getD 0])
  have hbp : ∀ x, (base [x])[p]?.getD 0 = x := by
    intro x
    have := (pos_lemma ix D _ m p hl (hlen [x]) hp).1
    simp only [base]
    rw [this]
    rw [List.getElem?_append_right (by omega)]
    simp [tlen]
  obtain ⟨l', hl'⟩ := inner_ok acc g' p base hset (q.2 - q.1 + 1).toNat q.1 [] es (by
    intro x h1 h2
    have hin : InBox (subDims ix D) (t.take m ++ [x]) := by
      rw [ssplit]
      exact inBox_append hpre ⟨h1, by omega, trivial⟩
    have e1 : acc (base [x]) = .ok (some (g (t.take m ++ [x]))) := hacc _ hin
    rw [e1]
    simp only [g', hbp])
  refine ⟨t.take m ++ [l'.headD y], ?_, ?_, 1, ?_⟩
  · rw [hlen l']; omega
  · rw [List.take_append_of_le_length (by omega)]
    rw [List.take_take]; simp
  · intro fuel
    rw [loop]
    simp only [stackOf_succ]
    have : step acc D (nonparOf ix 0) m ⟨m :: stackOf m, merge ix t, es⟩ =
        .next ⟨stackOf m, base l', es ++ (upFrom q.1 (q.2 - q.1 + 1).toNat).map fun x => g' (base [x])⟩ := by
      unfold step
      simp only [hp, hD, hv]
      rw [if_pos (by omega), h0, hl']
      rfl
    rw [this]
    simp only
    congr 2
    rw [hdrop]
    simp only [enum, List.map_cons, List.map_nil]
    congr 1
    rw [List.map_flatMap]
    simp only [List.map_cons, List.map_nil]
    rw [← List.map_eq_flatMap]
    apply List.map_congr_left
    intro x _
    simp only [g', hbp]

theorem stackOf_length_push {k m : Nat} (h : k < m + 1) :
    (List.range' (k + 1) ((m + 1) - (k + 1))).reverse ++ stackOf (k + 1) = stackOf (m + 1) :=
  stackOf_push (k + 1) (m + 1) (by omega)

theorem step_mid (hl : ix.length = D.length) {m k : Nat} (hm : (subDims ix D).length = m + 1) (hk : k < m)
    (t : List Int) (ht : t.length = m + 1) {q : Int × Int} (hq : (subDims ix D)[k]? = some q) {v : Int} (hv : t[k]? = some v)
    (es : List α) :
    step acc D (nonparOf ix 0) k ⟨stackOf (k + 1), merge ix t, es⟩ =
      if v = q.2 then .next ⟨stackOf k, merge ix (t.set k q.1), es⟩
      else .next ⟨stackOf (m + 1), merge ix (t.set k (v + 1)), es⟩ := by
  have hnl := sub_length ix D hl
  obtain ⟨p, hp⟩ : ∃ p, (nonparOf ix 0)[k]? = some p := ⟨_, List.getElem?_eq_getElem (by omega)⟩
  obtain ⟨h1, h2, h3⟩ := pos_lemma ix D t k p hl (by omega) hp
  unfold step
  simp only [hp, h3, hq, h1, hv]
  rw [if_neg (by omega)]
  split
  · rw [stackOf_succ]; simp only [List.tail_cons, h2]
  · rw [h2, ← hnl, hm, stackOf_length_push (by omega)]

theorem take_set_self {t : List Int} {k : Nat} {x : Int} (hk : k < t.length) :
    (t.set k x).take (k + 1) = t.take k ++ [x] := by
  rw [List.take_succ_eq_append_getElem (by simpa using hk)]
  simp [List.take_set_of_le]

theorem runs_all (g : List Int → α) (hl : ix.length = D.length) {m : Nat} (hm : (subDims ix D).length = m + 1)
    (hacc : ∀ u, InBox (subDims ix D) u → acc (merge ix u) = .ok (some (g u))) :
    ∀ (j k : Nat), j + k = m → ∀ (t : List Int) (es : List α), t.length = m + 1 →
      InBox ((subDims ix D).take k) (t.take k) →
      (∀ (i : Nat) (q : Int × Int), k ≤ i → i < m → (subDims ix D)[i]? = some q → q.1 ≤ q.2 ∧ t[i]? = some q.1) →
      ∃ t', t'.length = m + 1 ∧ t'.take m = t.take m ∧
        Runs acc D ix ⟨stackOf (m + 1), merge ix t, es⟩
          ⟨stackOf k, merge ix t', es ++ (enum ((subDims ix D).drop k)).map fun u => g (t.take k ++ u)⟩
  | 0, k, hjk, t, es, ht, hpre, hmin => by
    have : k = m := by omega
    subst this
    exact step_last g hl hm t ht hpre hacc es
  | j + 1, k, hjk, t, es, ht, hpre, hmin => by
    obtain ⟨q, hq⟩ : ∃ q, (subDims ix D)[k]? = some q := ⟨_, List.getElem?_eq_getElem (by omega)⟩
    have hdrop : (subDims ix D).drop k = q :: (subDims ix D).drop (k + 1) := by
      have hqe : q = (subDims ix D)[k]'(by omega) := by
        rw [List.getElem?_eq_getElem (by omega)] at hq; exact (Option.some.inj hq).symm
      rw [hqe]; exact List.drop_eq_getElem_cons (by omega)
    have htake : (subDims ix D).take (k + 1) = (subDims ix D).take k ++ [q] := by
      have hqe : q = (subDims ix D)[k]'(by omega) := by
        rw [List.getElem?_eq_getElem (by omega)] at hq; exact (Option.some.inj hq).symm
      rw [hqe]; exact List.take_succ_eq_append_getElem (by omega)
    obtain ⟨hne, hk0⟩ := hmin k q (le_refl _) (by omega) hq
    -- the values of dimension `k` from `v` on
    have main : ∀ (n : Nat) (v : Int) (s : List Int) (fs : List α), q.2 - v = n → q.1 ≤ v → s.length = m + 1 →
        s.take k = t.take k → s[k]? = some v →
        (∀ (i : Nat) (q : Int × Int), k < i → i < m → (subDims ix D)[i]? = some q → q.1 ≤ q.2 ∧ s[i]? = some q.1) →
        ∃ t', t'.length = m + 1 ∧ t'.take m = (s.set k q.1).take m ∧
          Runs acc D ix ⟨stackOf (m + 1), merge ix s, fs⟩
            ⟨stackOf k, merge ix t', fs ++ ((upFrom v (n + 1)).flatMap fun x =>
              (enum ((subDims ix D).drop (k + 1))).map fun u => g (t.take k ++ (x :: u)))⟩ := by
      intro n
      induction n with
      | zero =>
        intro v s fs hn hv hs hsk hsv hrest
        have hst : s.take (k + 1) = t.take k ++ [v] := by
          have he : v = s[k]'(by omega) := by
            rw [List.getElem?_eq_getElem (by omega)] at hsv; exact (Option.some.inj hsv).symm
          rw [List.take_succ_eq_append_getElem (by omega), hsk, ← he]
        obtain ⟨t1, h1, h2, h3⟩ := runs_all g hl hm hacc j (k + 1) (by omega) s fs hs (by
          rw [htake, hst]
          exact inBox_append hpre ⟨hv, by omega, trivial⟩) (fun i q hi => hrest i q (by omega))
        have hkv : t1[k]? = some v := by
          have : (t1.take m)[k]? = (s.take m)[k]? := by rw [h2]
          rw [List.getElem?_take_of_lt (by omega), List.getElem?_take_of_lt (by omega)] at this
          rw [this, hsv]
        refine ⟨t1.set k q.1, by simpa using h1, ?_, ?_⟩
        · rw [List.take_set, List.take_set, h2]
        · refine Runs.trans acc D ix h3 ⟨1, fun fuel => ?_⟩
          rw [loop, stackOf_succ]
          simp only
          rw [← stackOf_succ, step_mid hl hm (by omega) t1 h1 hq hkv, if_pos (by omega)]
          simp only [hst, upFrom, List.flatMap_cons, List.flatMap_nil, List.append_nil, List.append_assoc,
            List.singleton_append]
      | succ n ih =>
        intro v s fs hn hv hs hsk hsv hrest
        have hst : s.take (k + 1) = t.take k ++ [v] := by
          have he : v = s[k]'(by omega) := by
            rw [List.getElem?_eq_getElem (by omega)] at hsv; exact (Option.some.inj hsv).symm
          rw [List.take_succ_eq_append_getElem (by omega), hsk, ← he]
        obtain ⟨t1, h1, h2, h3⟩ := runs_all g hl hm hacc j (k + 1) (by omega) s fs hs (by
          rw [htake, hst]
          exact inBox_append hpre ⟨hv, by omega, trivial⟩) (fun i q hi => hrest i q (by omega))
        have hget : ∀ i, i < m → t1[i]? = s[i]? := by
          intro i hi
          have : (t1.take m)[i]? = (s.take m)[i]? := by rw [h2]
          rwa [List.getElem?_take_of_lt (by omega), List.getElem?_take_of_lt (by omega)] at this
        have hkv : t1[k]? = some v := by rw [hget k (by omega), hsv]
        have htk : t1.take k = s.take k := by
          have : (t1.take m).take k = (s.take m).take k := by rw [h2]
          rwa [List.take_take, List.take_take, Nat.min_eq_left (by omega)] at this
        obtain ⟨t2, g1, g2, g3⟩ := ih (v + 1) (t1.set k (v + 1))
          (fs ++ (enum ((subDims ix D).drop (k + 1))).map fun u => g (s.take (k + 1) ++ u))
          (by push_cast at hn; omega) (by omega) (by simpa using h1)
          (by rw [List.take_set_of_le (by omega), htk, hsk]) (by rw [List.getElem?_set_self (by omega)])
          (fun i q' hi hi' hq' => by
            rw [List.getElem?_set_ne (by omega), hget i hi']
            exact hrest i q' hi hi' hq')
        refine ⟨t2, g1, ?_, ?_⟩
        · rw [g2, List.set_set, List.take_set, List.take_set, h2]
        · refine Runs.trans acc D ix h3 (Runs.trans acc D ix (s' := ⟨stackOf (m + 1), merge ix (t1.set k (v + 1)),
            fs ++ (enum ((subDims ix D).drop (k + 1))).map fun u => g (s.take (k + 1) ++ u)⟩) ⟨1, fun fuel => ?_⟩ ?_)
          · rw [loop, stackOf_succ]
            simp only
            rw [← stackOf_succ, step_mid hl hm (by omega) t1 h1 hq hkv, if_neg (by push_cast at hn; omega)]
          · convert g3 using 2
            rw [List.append_assoc, hst]
            simp only [upFrom, List.flatMap_cons, List.append_assoc, List.singleton_append]
    obtain ⟨t', h1, h2, h3⟩ := main (q.2 - q.1).toNat q.1 t es (by omega) (le_refl _) ht rfl hk0
      (fun i q' hi hi' hq' => hmin i q' (by omega) hi' hq')
    refine ⟨t', h1, ?_, ?_⟩
    · rw [h2]
      congr 1
      apply List.ext_getElem?
      intro i
      by_cases hi : i = k
      · subst hi; rw [List.getElem?_set_self (by omega), hk0]
      · rw [List.getElem?_set_ne (by omega)]
    · convert h3 using 2
      rw [hdrop]
      simp only [enum, List.map_flatMap, List.map_map]
      congr 1
      rw [show (q.2 - q.1 + 1).toNat = (q.2 - q.1).toNat + 1 by omega]
      rfl

/-- The loop does not end: the last of the dimensions with a variable index is empty, and so is another one. -/
def Endless (S : List (Int × Int)) : Prop :=
  (∃ p, S[S.length - 1]? = some p ∧ p.2 < p.1) ∧ ∃ (k : Nat) (q : Int × Int), k + 1 < S.length ∧ S[k]? = some q ∧ q.2 < q.1

theorem inBox_get : ∀ (S : List (Int × Int)) (u : List Int) (k : Nat) (q : Int × Int) (x : Int), InBox S u → S[k]? = some q →
    u[k]? = some x → q.1 ≤ x ∧ x ≤ q.2
  | [], _, k, q, x, _, h, _ => by simp at h
  | _ :: _, [], k, q, x, h, _, _ => by simp [InBox] at h
  | (lo, hi) :: S, y :: u, 0, q, x, h, hq, hx => by
    simp only [List.getElem?_cons_zero, Option.some.injEq] at hq hx
    subst hq; subst hx
    exact ⟨h.1, h.2.1⟩
  | (lo, hi) :: S, y :: u, k + 1, q, x, h, hq, hx =>
    inBox_get S u k q x h.2.2 (by simpa using hq) (by simpa using hx)

theorem inBox_take_zero (S : List (Int × Int)) (t : List Int) : InBox (S.take 0) (t.take 0) := by simp [InBox]

/-- What the slice for the fixed indices has to be. -/
def SliceOk (a : Lit α) (D : List (Int × Int)) (ix : List (Option Int)) : Sl α → Prop
  | .elems es => (es.length : Int) = count (subDims ix D) ∧
      ∀ t : List Int, t.length = (subDims ix D).length →
        (InBox (subDims ix D) t → ∃ e, es[(rank (subDims ix D) t).toNat]? = some e ∧ access a (merge ix t) = .ok (some e)) ∧
        (¬ InBox (subDims ix D) t → access a (merge ix t) = .ok none)
  | .undef => ∀ t : List Int, t.length = (subDims ix D).length → access a (merge ix t) = .ok none
  | .bad => False

/-- **C68**: an access with some fixed and some variable indices. The elements that are collected are, in row-major order, those
at the positions given by the fixed indices together with all values in the index sets of the variable ones: the access to the
array of these elements with the variable indices is the access to the original array; and if an access out of bounds is reported,
every access with these fixed indices is out of bounds. Missing: the case in which the loop does not end (`C68_slice_fails`). -/
theorem _root_.MZ.C68_slice_partial {α : Type} [Inhabited α] (a : Lit α) (D : List (Int × Int)) (E : List α) (h : IsArr a D E)
    (ix : List (Option Int)) (hl : ix.length = D.length) (hv : none ∈ ix) (hend : ¬ Endless (subDims ix D)) :
    ∃ n res, (∀ fuel, n ≤ fuel → slice a D ix fuel = some res) ∧ SliceOk a D ix res := by
  have hnl := sub_length ix D hl
  obtain ⟨m, hm⟩ : ∃ m, (subDims ix D).length = m + 1 := by
    have : (nonparOf ix 0) ≠ [] := by
      clear hend hnl hl h
      generalize 0 = i
      induction ix generalizing i with
      | nil => simp at hv
      | cons o ix ih =>
        cases o with
        | none => simp [nonparOf]
        | some v => simp only [nonparOf]; exact ih (by simpa using hv) _
    refine ⟨(subDims ix D).length - 1, ?_⟩
    have := List.length_pos_iff.2 this
    omega
  have hacc : ∀ t : List Int, t.length = (subDims ix D).length →
      ((ParIn ix D ∧ InBox (subDims ix D) t) → ∃ e, access a (merge ix t) = .ok (some e)) ∧
      (¬ (ParIn ix D ∧ InBox (subDims ix D) t) → access a (merge ix t) = .ok none) := by
    intro t ht
    rw [← inBox_merge ix D t hl (by omega)]
    have := C18_access a D E h (merge ix t) (by rw [merge_length, hl])
    exact ⟨fun hin => by obtain ⟨e, -, he⟩ := this.1 hin; exact ⟨e, he⟩, this.2⟩
  let S := subDims ix D
  let t0 : List Int := S.map Prod.fst
  have ht0 : t0.length = m + 1 := by simp [t0, S, hm]
  have hget0 : ∀ (k : Nat) (q : Int × Int), S[k]? = some q → t0[k]? = some q.1 := by
    intro k q hq
    simp [t0, hq]
  have hs : ∀ fuel, slice a D ix fuel = loop (access a) D (nonparOf ix 0) fuel ⟨stackOf (m + 1), merge ix t0, []⟩ := by
    intro fuel
    unfold slice
    simp only
    rw [startIdx_eq ix D hl, ← hnl, hm]
    rfl
  obtain ⟨ql, hql⟩ : ∃ q, S[m]? = some q := ⟨_, List.getElem?_eq_getElem (by show m < (subDims ix D).length; omega)⟩
  by_cases hok : (ParIn ix D ∨ ql.2 < ql.1) ∧ ∀ (k : Nat) (q : Int × Int), k < m → S[k]? = some q → q.1 ≤ q.2
  · -- all accesses succeed, or there are none
    obtain ⟨hp, hne⟩ := hok
    have hg : ∃ g : List Int → α, ∀ u, InBox S u → access a (merge ix u) = .ok (some (g u)) := by
      refine ⟨fun u => match access a (merge ix u) with | .ok (some e) => e | _ => default, fun u hu => ?_⟩
      have hul := inBox_length hu
      have hpar : ParIn ix D := by
        rcases hp with hp | hp
        · exact hp
        · obtain ⟨x, hx⟩ : ∃ x, u[m]? = some x :=
            ⟨_, List.getElem?_eq_getElem (by show m < u.length; rw [hul]; show m < (subDims ix D).length; omega)⟩
          have := inBox_get S u m ql x hu hql hx
          omega
      obtain ⟨e, he⟩ := (hacc u hul).1 ⟨hpar, hu⟩
      simp [he]
    obtain ⟨g, hg⟩ := hg
    obtain ⟨t', ht', -, n, hn⟩ := runs_all (acc := access a) g hl hm hg m 0 (by omega) t0 [] ht0 (inBox_take_zero _ _)
      (fun i q _ hi hq => ⟨hne i q hi hq, hget0 i q hq⟩)
    refine ⟨n + 1, .elems ((enum S).map g), ?_, ?_, ?_⟩
    · intro fuel hf
      obtain ⟨f, rfl⟩ : ∃ f, fuel = (f + 1) + n := ⟨fuel - n - 1, by omega⟩
      rw [hs, hn, loop]
      simp [stackOf, S]
    · simp [enum_length, S]
    · intro t ht
      constructor
      · intro hin
        exact ⟨g t, by simp [List.getElem?_map, S, enum_rank _ t hin], hg t hin⟩
      · intro hin
        exact (hacc t ht).2 (fun h => hin h.2)
  · -- the first access is out of bounds
    have hlast : ql.1 ≤ ql.2 := by
      by_contra hcon
      apply hok
      refine ⟨Or.inr (by omega), fun k q hk hq => ?_⟩
      by_contra hq'
      exact hend ⟨⟨ql, by rw [hm]; exact hql, by omega⟩, k, q, by omega, hq, by omega⟩
    have hnone : ∀ t : List Int, t.length = (subDims ix D).length → access a (merge ix t) = .ok none := by
      intro t ht
      apply (hacc t ht).2
      rintro ⟨h1, h2⟩
      apply hok
      refine ⟨Or.inl h1, fun k q hk hq => ?_⟩
      obtain ⟨x, hx⟩ : ∃ x, t[k]? = some x := ⟨_, List.getElem?_eq_getElem (by omega)⟩
      have := inBox_get S t k q x h2 hq hx
      omega
    refine ⟨1, .undef, ?_, hnone⟩
    intro fuel hf
    obtain ⟨f, rfl⟩ : ∃ f, fuel = f + 1 := ⟨fuel - 1, by omega⟩
    obtain ⟨p, hpp⟩ : ∃ p, (nonparOf ix 0)[m]? = some p := ⟨_, List.getElem?_eq_getElem (by omega)⟩
    obtain ⟨h1, h2, h3⟩ := pos_lemma ix D t0 m p hl (by omega) hpp
    have hst : step (access a) D (nonparOf ix 0) m ⟨m :: stackOf m, merge ix t0, []⟩ = .undef := by
      unfold step
      have hqq : (subDims ix D)[m]? = some ql := hql
      simp only [hpp, h3, hqq, h1, hget0 m ql hql]
      rw [if_pos (by omega)]
      obtain ⟨w, hw⟩ : ∃ w, (ql.2 - ql.1 + 1).toNat = w + 1 := ⟨(ql.2 - ql.1).toNat, by omega⟩
      rw [hw, inner]
      simp only [h2, hnone (t0.set m ql.1) (by simp; omega)]
    rw [hs, loop, stackOf_succ]
    simp only [hst]

/-- **C68**: the loop does not end if the last of the dimensions with a variable index is empty and so is another one, with every
array and all fixed indices. -/
theorem endless {α : Type} (acc : List Int → Res (Option α)) (D : List (Int × Int)) (ix : List (Option Int))
    (hl : ix.length = D.length) {k : Nat} {q ql : Int × Int} {m : Nat} (hm : (subDims ix D).length = m + 1) (hk : k < m)
    (hq : (subDims ix D)[k]? = some q) (hqe : q.2 < q.1) (hql : (subDims ix D)[m]? = some ql) (hqle : ql.2 < ql.1) :
    ∀ (fuel : Nat) (t : List Int) (j : Nat) (es : List α), t.length = m + 1 → k ≤ j → j ≤ m →
      (∃ x, t[k]? = some x ∧ q.2 < x) → loop acc D (nonparOf ix 0) fuel ⟨stackOf (j + 1), merge ix t, es⟩ = none := by
  intro fuel
  have hnl := sub_length ix D hl
  induction fuel with
  | zero => intros; rfl
  | succ fuel ih =>
    intro t j es ht hj hjm hx
    obtain ⟨x, hx1, hx2⟩ := hx
    by_cases hjm' : j = m
    · subst hjm'
      obtain ⟨p, hpp⟩ : ∃ p, (nonparOf ix 0)[j]? = some p := ⟨_, List.getElem?_eq_getElem (by omega)⟩
      obtain ⟨h1, h2, h3⟩ := pos_lemma ix D t j p hl (by omega) hpp
      obtain ⟨v, hv⟩ : ∃ v, t[j]? = some v := ⟨_, List.getElem?_eq_getElem (by omega)⟩
      have hst : step acc D (nonparOf ix 0) j ⟨j :: stackOf j, merge ix t, es⟩ = .next ⟨stackOf j, merge ix t, es⟩ := by
        unfold step
        simp only [hpp, h3, hql, h1, hv]
        rw [if_pos (by omega), show (ql.2 - ql.1 + 1).toNat = 0 by omega]
        simp [inner]
      rw [loop, stackOf_succ]
      simp only [hst]
      obtain ⟨j', rfl⟩ : ∃ j', j = j' + 1 := ⟨j - 1, by omega⟩
      exact ih t j' es ht (by omega) (by omega) ⟨x, hx1, hx2⟩
    · obtain ⟨q', hq'⟩ : ∃ q', (subDims ix D)[j]? = some q' := ⟨_, List.getElem?_eq_getElem (by omega)⟩
      obtain ⟨v, hv⟩ : ∃ v, t[j]? = some v := ⟨_, List.getElem?_eq_getElem (by omega)⟩
      rw [loop, stackOf_succ]
      simp only
      rw [← stackOf_succ, step_mid hl hm (by omega) t ht hq' hv]
      by_cases hjk : j = k
      · subst hjk
        rw [hq] at hq'; cases hq'
        rw [hx1] at hv; cases hv
        rw [if_neg (by omega)]
        exact ih _ m es (by simpa using ht) (by omega) (le_refl _)
          ⟨x + 1, by rw [List.getElem?_set_self (by omega)], by omega⟩
      · have hx' : ∀ w, (t.set j w)[k]? = some x := fun w => by rw [List.getElem?_set_ne hjk, hx1]
        by_cases hvq : v = q'.2
        · rw [if_pos hvq]
          obtain ⟨j', rfl⟩ : ∃ j', j = j' + 1 := ⟨j - 1, by omega⟩
          exact ih _ j' es (by simpa using ht) (by omega) (by omega) ⟨x, hx' _, hx2⟩
        · rw [if_neg hvq]
          exact ih _ m es (by simpa using ht) (by omega) (le_refl _) ⟨x, hx' _, hx2⟩

/-- **C68**: an access with fixed and variable indices to an array for which the last index set with a variable index is empty,
and so is another one, is never finished. -/
theorem _root_.MZ.C68_slice_fails {α : Type} (a : Lit α) (D : List (Int × Int)) (ix : List (Option Int))
    (hl : ix.length = D.length) (hend : Endless (subDims ix D)) : ∀ fuel, slice a D ix fuel = none := by
  obtain ⟨⟨ql, hql, hqle⟩, k, q, hk, hq, hqe⟩ := hend
  intro fuel
  obtain ⟨m, hm⟩ : ∃ m, (subDims ix D).length = m + 1 := ⟨(subDims ix D).length - 1, by omega⟩
  rw [hm] at hql
  have := endless (access a) D ix hl hm (by omega) hq hqe hql hqle fuel ((subDims ix D).map Prod.fst) m [] (by simp [hm])
    (by omega) (le_refl _) ⟨q.1, by simp [hq], hqe⟩
  unfold slice
  simp only
  rw [startIdx_eq ix D hl, ← sub_length ix D hl, hm]
  exact this

/-- Such an array: `array[1..2, 1..0, 1..0] of var int: a` and the access `a[1, x, y]`. -/
example : ∃ a : Lit Int, IsArr a [(1, 2), (1, 0), (1, 0)] [] ∧ ∀ fuel, slice a [(1, 2), (1, 0), (1, 0)] [some 1, none, none] fuel = none :=
  ⟨.vec [] false (flat [(1, 2), (1, 0), (1, 0)]), Wf.isArr (Wf.plain ⟨by simp, by decide⟩ (by decide)),
    C68_slice_fails _ _ _ rfl ⟨⟨(1, 0), rfl, by decide⟩, 0, (1, 0), by decide, rfl, by decide⟩⟩

/-- A slice: the second row of an array with two rows. -/
example : slice (.vec [10, 11, 12, 13, 14, 15] false (flat [(1, 2), (4, 6)])) [(1, 2), (4, 6)] [some 2, none] 5 =
    some (.elems [13, 14, 15]) := by
  rfl

end Access
end MZ
