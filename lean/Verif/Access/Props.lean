import Verif.Access.Slice
import Verif.Access.Element
/-!
# C68: array accesses mean what they say
-/
namespace MZ
namespace Access
open Arr

/-! ## Specification -/

/-- The value of an index: the minimum of the index set stands for `<>`. -/
def Ix.at (p : Int × Int) : Ix → Int
  | .par v => v.getD p.1
  | .var v => v

/-- The position that is accessed. -/
def position : List Ix → List (Int × Int) → List Int
  | i :: ix, p :: D => i.at p :: position ix D
  | _, _ => []

/-- The access is defined: all indices are absent, or they are in the index sets. -/
def Defined (D : List (Int × Int)) (ix : List Ix) : Prop := (∀ i ∈ ix, i = .par none) ∨ InBox D (position ix D)

/-- Its value: absent if one of the indices is, otherwise the element. -/
def Value (D : List (Int × Int)) (E : List Int) (ix : List Ix) (r : OInt) : Prop :=
  ((∃ i ∈ ix, i = .par none) → r = none) ∧
  ((¬ ∃ i ∈ ix, i = .par none) → r ≠ none ∧ E[(rank D (position ix D)).toNat]? = r)

/-- The same for optional variable indices. -/
def toIx (t : List OInt) : List Ix := t.map .par

/-! ## Proofs -/

theorem fixed_length : ∀ (ix : List Ix) (D : List (Int × Int)), ix.length = D.length → (fixed ix D).length = D.length
  | [], [], _ => rfl
  | [], _ :: _, h => by simp at h
  | _ :: _, [], h => by simp at h
  | .par v :: ix, p :: D, h => by simp [fixed, fixed_length ix D (by simpa using h)]
  | .var v :: ix, p :: D, h => by simp [fixed, fixed_length ix D (by simpa using h)]

theorem merge_fixed : ∀ (ix : List Ix) (D : List (Int × Int)), ix.length = D.length →
    merge (fixed ix D) (varIdx ix) = position ix D
  | [], [], _ => rfl
  | [], _ :: _, h => by simp at h
  | _ :: _, [], h => by simp at h
  | .par v :: ix, p :: D, h => by
    simp only [fixed, varIdx, merge, position, Ix.at, merge_fixed ix D (by simpa using h)]
  | .var v :: ix, p :: D, h => by
    simp only [fixed, varIdx, merge, position, Ix.at, merge_fixed ix D (by simpa using h)]

theorem varIdx_length : ∀ (ix : List Ix) (D : List (Int × Int)), ix.length = D.length →
    (varIdx ix).length = (subDims (fixed ix D) D).length
  | [], [], _ => rfl
  | [], _ :: _, h => by simp at h
  | _ :: _, [], h => by simp at h
  | .par v :: ix, p :: D, h => by
    simp only [varIdx, fixed, subDims]; exact varIdx_length ix D (by simpa using h)
  | .var v :: ix, p :: D, h => by
    simp only [varIdx, fixed, subDims, List.length_cons, varIdx_length ix D (by simpa using h)]

theorem none_mem_fixed : ∀ (ix : List Ix) (D : List (Int × Int)), ix.length = D.length → varIdx ix ≠ [] →
    none ∈ fixed ix D
  | [], [], _, h => by simp [varIdx] at h
  | [], _ :: _, h, _ => by simp at h
  | _ :: _, [], h, _ => by simp at h
  | .par v :: ix, p :: D, h, h' => by
    simp only [fixed, List.mem_cons, reduceCtorEq, false_or]
    exact none_mem_fixed ix D (by simpa using h) (by simpa [varIdx] using h')
  | .var v :: ix, p :: D, h, h' => by simp [fixed]

theorem allVar_position : ∀ (ix : List Ix) (D : List (Int × Int)), ix.length = D.length →
    (ix.all Ix.isVar = true) → position ix D = varIdx ix
  | [], [], _, _ => rfl
  | [], _ :: _, h, _ => by simp at h
  | _ :: _, [], h, _ => by simp at h
  | .par v :: ix, p :: D, h, h' => by simp [Ix.isVar] at h'
  | .var v :: ix, p :: D, h, h' => by
    simp only [position, Ix.at, varIdx]
    rw [allVar_position ix D (by simpa using h) (by simpa [Ix.isVar] using h')]

theorem allPar_position : ∀ (ix : List Ix) (D : List (Int × Int)), ix.length = D.length → varIdx ix = [] →
    (fixed ix D).map (fun v => v.getD 0) = position ix D
  | [], [], _, _ => rfl
  | [], _ :: _, h, _ => by simp at h
  | _ :: _, [], h, _ => by simp at h
  | .par v :: ix, p :: D, h, h' => by
    simp only [fixed, List.map_cons, position, Ix.at, Option.getD_some]
    rw [allPar_position ix D (by simpa using h) (by simpa [varIdx] using h')]
  | .var v :: ix, p :: D, h, h' => by simp [varIdx] at h'

theorem position_length : ∀ (ix : List Ix) (D : List (Int × Int)), ix.length = D.length → (position ix D).length = D.length
  | [], [], _ => rfl
  | [], _ :: _, h => by simp at h
  | _ :: _, [], h => by simp at h
  | i :: ix, p :: D, h => by simp [position, position_length ix D (by simpa using h)]

theorem var_mem_of_ne {ix : List Ix} (h : varIdx ix ≠ []) : ∃ v, Ix.var v ∈ ix := by
  induction ix with
  | nil => simp [varIdx] at h
  | cons i ix ih =>
    cases i with
    | par v =>
      obtain ⟨w, hw⟩ := ih (by simpa [varIdx] using h)
      exact ⟨w, List.mem_cons_of_mem _ hw⟩
    | var v => exact ⟨v, by simp⟩

/-- What the constraints of an access have to be, in the root context and in others. -/
def Right (root : Bool) (D : List (Int × Int)) (E : List Int) (ix : List Ix) (P : Bool → OInt → Prop) : Prop :=
  if root then ∀ r, P true r ↔ Defined D ix ∧ Value D E ix r
  else (∃ b r, P b r) ∧ ∀ b r, P b r → (b = true ↔ Defined D ix) ∧ (b = true → Value D E ix r)

theorem element_right (root : Bool) (bs : List (Option (Int × Int))) (dom : Int → Prop) (D S : List (Int × Int)) (E es : List Int)
    (ix : List Ix) (t : List Int) (hdom : ∀ e ∈ es, dom e) (hc : count S = es.length) (hd : dimsOk S)
    (ht : t.length = S.length) (hbs : BoundsOk bs t) (hpar : ∀ i ∈ ix, i ≠ .par none) (hne : ix ≠ [])
    (hin : InBox S t ↔ InBox D (position ix D))
    (hval : InBox S t → es[(rank S t).toNat]? = E[(rank D (position ix D)).toNat]?) :
    Right root D E ix (fun b r => ∃ v, element root bs dom t S es b v ∧ r = some v) := by
  obtain ⟨⟨b, r, h1, h2, h3, h4⟩, h5⟩ := C68_element bs dom t S es hdom hc hd ht hbs
  have hany : ¬ ∃ i ∈ ix, i = .par none := fun ⟨i, hi, h⟩ => hpar i hi h
  have hdef : Defined D ix ↔ InBox S t := by
    unfold Defined
    rw [hin]
    constructor
    · rintro (h | h)
      · obtain ⟨i, ix', rfl⟩ := List.exists_cons_of_ne_nil hne
        exact absurd (h i (by simp)) (hpar i (by simp))
      · exact h
    · exact Or.inr
  have hvalue : ∀ v, InBox S t → (Value D E ix (some v) ↔ es[(rank S t).toNat]? = some v) := by
    intro v h
    unfold Value
    rw [hval h]
    simp only [hany, false_imp_iff, not_false_eq_true, true_imp_iff, true_and]
    simp
  unfold Right
  cases root with
  | true =>
    rw [if_pos rfl]
    intro r
    rw [hdef]
    constructor
    · rintro ⟨v, hv, rfl⟩
      obtain ⟨g1, g2⟩ := (h5 v).1 hv
      exact ⟨g1, (hvalue v g1).2 g2⟩
    · rintro ⟨g1, g2⟩
      cases r with
      | none => exact absurd rfl (g2.2 hany).1
      | some v => exact ⟨v, (h5 v).2 ⟨g1, (hvalue v g1).1 g2⟩, rfl⟩
  | false =>
    rw [if_neg (by simp)]
    refine ⟨⟨b, some r, r, h1, rfl⟩, ?_⟩
    rintro b' r' ⟨v, hv, rfl⟩
    obtain ⟨rfl, rfl⟩ := h2 _ _ hv
    rw [hdef]
    exact ⟨h3, fun hb => (hvalue _ (h3.1 hb)).2 (h4 (h3.1 hb))⟩

/-- **C68**: an array access with fixed and variable indices, for integer arrays. Flattening it ends, and in the root context the
resulting constraints hold exactly if the access is defined and the result is its value; in other contexts they can always be
satisfied, they make the access defined exactly if it is, and then the result is its value. Missing: accesses for which the loop
does not end (`C68_slice_fails`), and a fixed absent index together with a variable one (`C68_absent_fails`). -/
theorem _root_.MZ.C68_access_partial (root : Bool) (bs : List (Option (Int × Int))) (dom : Int → Prop) (a : Lit Int)
    (D : List (Int × Int)) (E : List Int) (h : IsArr a D E) (hdom : ∀ e ∈ E, dom e) (ix : List Ix) (hl : ix.length = D.length)
    (hd : (varIdx ix).length ≤ 6) (hbs : BoundsOk bs (varIdx ix)) (habs : varIdx ix ≠ [] → ∀ i ∈ ix, i ≠ .par none)
    (hend : ¬ Endless (subDims (fixed ix D) D)) :
    ∃ n P, (∀ fuel, n ≤ fuel → flatten root bs dom a D E ix fuel = .con P) ∧ Right root D E ix P := by
  have hne : ix ≠ [] := by
    rintro rfl
    have := h.shape.1
    cases D with
    | nil => exact this rfl
    | cons p D => simp at hl
  by_cases hv : ix.all Ix.isVar = true
  · have hp := allVar_position ix D hl hv
    have hlen : (varIdx ix).length = D.length := by rw [← hp, position_length ix D hl]
    have hvn : varIdx ix ≠ [] := by
      intro h0
      rw [h0] at hlen
      have := h.shape.1
      cases D with
      | nil => exact this rfl
      | cons p D => simp at hlen
    refine ⟨0, _, fun fuel _ => by unfold flatten; rw [if_pos hv], ?_⟩
    refine element_right root bs dom D D E E ix _ hdom h.total ⟨?_, by omega⟩ hlen hbs (habs hvn) hne ?_ ?_
    · rw [← hlen]; exact List.length_pos_iff.2 hvn
    · rw [hp]
    · intro _; rw [hp]
  · by_cases hv0 : varIdx ix = []
    · have hpos := allPar_position ix D hl hv0
      have hacc := C18_access a D E h (position ix D) (position_length ix D hl)
      have hfl : ∀ fuel, flatten root bs dom a D E ix fuel = allFixed a ix D := by
        intro fuel
        unfold flatten
        rw [if_neg hv, if_pos (by simp [hv0])]
      by_cases hall : ix.all (fun i => decide (i = .par none)) = true
      · have hall' : ∀ i ∈ ix, i = .par none := by simpa using hall
        refine ⟨0, _, fun fuel _ => by rw [hfl]; unfold allFixed; rw [if_pos hall], ?_⟩
        have hany : ∃ i ∈ ix, i = .par none := by
          obtain ⟨i, ix', rfl⟩ := List.exists_cons_of_ne_nil hne
          exact ⟨i, by simp, hall' i (by simp)⟩
        have hval : ∀ r, Value D E ix r ↔ r = none := by
          intro r
          unfold Value
          simp only [hany, true_imp_iff, not_true_eq_false, false_imp_iff, and_true]
        have hdef : Defined D ix := Or.inl hall'
        unfold Right
        cases root with
        | true => simp [hval, hdef]
        | false =>
          simp only [Bool.false_eq_true, if_false, hval, hdef, iff_true]
          exact ⟨⟨true, none, rfl, rfl⟩, fun b r hbr => ⟨hbr.1, fun _ => hbr.2⟩⟩
      · have hall' : ¬ ∀ i ∈ ix, i = .par none := by simpa using hall
        have hdef : Defined D ix ↔ InBox D (position ix D) := by
          unfold Defined; simp only [hall', false_or]
        by_cases hin : InBox D (position ix D)
        · obtain ⟨e, he1, he2⟩ := hacc.1 hin
          refine ⟨0, _, fun fuel _ => by rw [hfl]; unfold allFixed; rw [if_neg hall, hpos, he2], ?_⟩
          have hval : ∀ r, Value D E ix r ↔ r = if ix.any (fun i => decide (i = .par none)) then none else some e := by
            intro r
            unfold Value
            rw [he1]
            by_cases hany : ∃ i ∈ ix, i = .par none
            · have : ix.any (fun i => decide (i = .par none)) = true := by simpa using hany
              simp only [hany, this, if_true, true_imp_iff, not_true_eq_false, false_imp_iff, and_true]
            · have : ix.any (fun i => decide (i = .par none)) = false := by
                simpa only [List.any_eq_false, decide_eq_true_eq, not_exists, not_and] using hany
              simp only [hany, this, false_imp_iff, not_false_eq_true, true_imp_iff, true_and]
              constructor
              · rintro ⟨-, h⟩; rw [← h]; rfl
              · intro h; rw [h]; simp
          unfold Right
          cases root with
          | true => simp [hval, hdef, hin]
          | false =>
            simp only [Bool.false_eq_true, if_false, hval, hdef, hin, iff_true]
            exact ⟨⟨true, _, rfl, rfl⟩, fun b r hbr => ⟨hbr.1, fun _ => hbr.2⟩⟩
        · have he2 := hacc.2 hin
          refine ⟨0, _, fun fuel _ => by rw [hfl]; unfold allFixed; rw [if_neg hall, hpos, he2], ?_⟩
          unfold Right
          cases root with
          | true => simp [hdef, hin]
          | false =>
            simp only [Bool.false_eq_true, if_false, hdef, hin, iff_false]
            exact ⟨⟨false, none, rfl⟩, fun b r hbr => by subst hbr; simp⟩
    · have hfix := fixed_length ix D hl
      obtain ⟨n, res, hn, hres⟩ := C68_slice_partial a D E h (fixed ix D) hfix (none_mem_fixed ix D hl hv0) hend
      have hlen := varIdx_length ix D hl
      have hm := merge_fixed ix D hl
      have hacc := C18_access a D E h (position ix D) (position_length ix D hl)
      have habs' := habs hv0
      have hdef : Defined D ix ↔ InBox D (position ix D) := by
        unfold Defined
        constructor
        · rintro (h | h)
          · obtain ⟨i, ix', rfl⟩ := List.exists_cons_of_ne_nil hne
            exact absurd (h i (by simp)) (habs' i (by simp))
          · exact h
        · exact Or.inr
      have hfl : ∀ fuel, n ≤ fuel → flatten root bs dom a D E ix fuel = (match res with
          | .bad => .bad
          | .undef => .con fun b _ => b = false
          | .elems es => .con fun b r => ∃ v, element root bs dom (varIdx ix) (subDims (fixed ix D) D) es b v ∧ r = some v) := by
        intro fuel hf
        unfold flatten
        rw [if_neg hv, if_neg (by simp [hv0]), hn fuel hf]
        cases res <;> rfl
      cases res with
      | bad => exact hres.elim
      | undef =>
        refine ⟨n, _, hfl, ?_⟩
        have hnone := hres (varIdx ix) hlen
        rw [hm] at hnone
        have hin : ¬ InBox D (position ix D) := by
          intro hin
          obtain ⟨e, -, he⟩ := hacc.1 hin
          rw [he] at hnone
          simp at hnone
        unfold Right
        cases root with
        | true => simp [hdef, hin]
        | false =>
          simp only [Bool.false_eq_true, if_false, hdef, hin, iff_false]
          exact ⟨⟨false, none, rfl⟩, fun b r hbr => by subst hbr; simp⟩
      | elems es =>
        refine ⟨n, _, hfl, ?_⟩
        obtain ⟨hc, hes⟩ := hres
        have hsub : ∀ e ∈ es, dom e := by
          intro e he
          obtain ⟨k, hk, rfl⟩ := List.getElem_of_mem he
          obtain ⟨t, ht, hr⟩ := rank_surj (D := subDims (fixed ix D) D) (k := (k : Int)) (by omega) (by omega)
          obtain ⟨e', g1, g2⟩ := (hes t (inBox_length ht)).1 ht
          rw [hr, Int.toNat_natCast, List.getElem?_eq_getElem hk] at g1
          cases g1
          have hacc' := C18_access a D E h (merge (fixed ix D) t) (by rw [merge_length, hfix])
          by_cases hin : InBox D (merge (fixed ix D) t)
          · obtain ⟨e', k1, k2⟩ := hacc'.1 hin
            rw [g2] at k2
            have : es[k] = e' := by simpa using k2
            rw [this]
            exact hdom _ (List.mem_of_getElem? k1)
          · rw [hacc'.2 hin] at g2
            simp at g2
        have hv1 := hes (varIdx ix) hlen
        rw [hm] at hv1
        have hin : InBox (subDims (fixed ix D) D) (varIdx ix) ↔ InBox D (position ix D) := by
          constructor
          · intro h1
            obtain ⟨e, -, he⟩ := hv1.1 h1
            by_contra h2
            rw [hacc.2 h2] at he
            simp at he
          · intro h1
            by_contra h2
            obtain ⟨e, -, he⟩ := hacc.1 h1
            rw [hv1.2 h2] at he
            simp at he
        refine element_right root bs dom D _ E es ix _ hsub hc.symm ⟨?_, by omega⟩ hlen hbs habs' hne hin ?_
        · rw [← hlen]; exact List.length_pos_iff.2 hv0
        · intro h1
          obtain ⟨e, he1, he2⟩ := hv1.1 h1
          obtain ⟨e', k1, k2⟩ := hacc.1 (hin.1 h1)
          rw [he2] at k2
          have : e = e' := by simpa using k2
          rw [he1, k1, this]

/-- **C68**: a fixed absent index together with a variable one. For `array[1..2, 1..2] of int: a` with the elements 1, 2, 3, 4 and
`x = 2`, the access `a[<>, x]` has to be absent, but its result is `a[1, 2]`. -/
theorem _root_.MZ.C68_absent_fails :
    ∃ (a : Lit Int) (D : List (Int × Int)) (E : List Int) (ix : List Ix), IsArr a D E ∧ ix.length = D.length ∧ Defined D ix ∧
      Value D E ix none ∧ ¬ Endless (subDims (fixed ix D) D) ∧
      ∃ n P, (∀ fuel, n ≤ fuel → flatten true [none] (fun _ => True) a D E ix fuel = .con P) ∧ P true (some 2) ∧ ¬ P true none := by
  have hA : IsArr (.vec [1, 2, 3, 4] false (flat [(1, 2), (1, 2)]) : Lit Int) [(1, 2), (1, 2)] [1, 2, 3, 4] :=
    Wf.isArr (Wf.plain ⟨by simp, by decide⟩ (by decide))
  refine ⟨_, _, _, [.par none, .var 2], hA, rfl, Or.inr (by decide), ⟨fun _ => rfl, fun h => absurd ⟨_, List.mem_cons_self, rfl⟩ h⟩,
    ?_, 3, fun b r => ∃ v, element true [none] (fun _ => True) [2] [(1, 2)] [1, 2] b v ∧ r = some v, ?_, ?_, ?_⟩
  · rintro ⟨-, k, q, h, -⟩
    simp [fixed, subDims] at h
  · intro fuel hf
    obtain ⟨f, rfl⟩ : ∃ f, fuel = f + 3 := ⟨fuel - 3, by omega⟩
    rfl
  · refine ⟨2, ?_, rfl⟩
    simp [element, varIdx, fixed, subDims, allIn, elT, elementT, isIn, nonshifted, fznElement]
  · rintro ⟨v, -, h⟩
    cases h

/-! ## Optional variable indices -/

theorem defaults_position : ∀ (t : List OInt) (D : List (Int × Int)), defaults t D = position (toIx t) D
  | [], D => by cases D <;> rfl
  | i :: t, [] => rfl
  | i :: t, p :: D => by
    simp only [defaults, toIx, List.map_cons, position, Ix.at]
    rw [defaults_position t D]; rfl

theorem count_pos_min : ∀ (t : List OInt) (D : List (Int × Int)), t.length = D.length → (∀ i ∈ t, i = none) → 0 < count D →
    InBox D (defaults t D)
  | [], [], _, _, _ => trivial
  | [], _ :: _, h, _, _ => by simp at h
  | _ :: _, [], h, _, _ => by simp at h
  | i :: t, (lo, hi) :: D, h, hn, hc => by
    simp only [count] at hc
    have h1 := count_nonneg D
    have h2 : 0 < Max.max 0 (hi - lo + 1) := by
      by_contra h
      have : Max.max 0 (hi - lo + 1) = 0 := by omega
      rw [this, zero_mul] at hc; omega
    have h3 : 0 < count D := by
      rcases Int.lt_or_eq_of_le h1 with h | h
      · exact h
      · rw [← h, mul_zero] at hc; omega
    have hi0 := hn i (by simp)
    subst hi0
    exact ⟨le_refl _, by simp only [Option.getD_none]; omega, count_pos_min t D (by simpa using h) (fun i hi => hn i (by simp [hi])) h3⟩

theorem defaults_min (t : List OInt) (D : List (Int × Int)) (h : t.length = D.length) (hn : ∀ i ∈ t, i = none) (hc : 0 < count D) :
    InBox D (defaults t D) := count_pos_min t D h hn hc

/-- **C68**: optional variable indices: the constraints are the right ones in every context, whichever indices are absent. -/
theorem _root_.MZ.C68_element_opt (root : Bool) (bs : List (Option (Int × Int))) (dom : Int → Prop) (t : List OInt)
    (D : List (Int × Int)) (E : List Int) (hdom : ∀ e ∈ E, dom e) (hE : count D = E.length) (hd : dimsOk D)
    (hlen : t.length = D.length) (hbs : BoundsOk bs (defaults t D)) :
    Right root D E (toIx t) (elementOpt root bs dom t D E) := by
  have hpl : (defaults t D).length = D.length := by
    rw [defaults_position]; exact position_length _ _ (by simp [toIx, hlen])
  have hne : t ≠ [] := by
    rintro rfl
    obtain ⟨d1, -⟩ := hd
    simp at hlen; omega
  have hall : (∀ i ∈ toIx t, i = .par none) ↔ t.all (fun i => i.isNone) = true := by
    simp [toIx]
  have hany : (∃ i ∈ toIx t, i = .par none) ↔ t.any (fun i => i.isNone) = true := by
    simp [toIx]
  -- the general case
  have gen : E.length ≠ 0 → Right root D E (toIx t) (fun b r => ∃ v, element root bs dom (defaults t D) D E b v ∧
      r = if t.any (fun i => i.isNone) then none else some v) := by
    intro h0
    obtain ⟨⟨b, r, h1, h2, h3, h4⟩, h5⟩ := C68_element bs dom (defaults t D) D E hdom hE hd hpl hbs
    have hdef : Defined D (toIx t) ↔ InBox D (defaults t D) := by
      unfold Defined
      rw [← defaults_position]
      constructor
      · rintro (h | h)
        · rw [hall] at h
          exact defaults_min t D hlen (by simpa using h) (by omega)
        · exact h
      · exact Or.inr
    have hval : InBox D (defaults t D) → ∀ v, E[(rank D (defaults t D)).toNat]? = some v → ∀ r,
        (Value D E (toIx t) r ↔ r = if t.any (fun i => i.isNone) then none else some v) := by
      intro hin v hv r
      unfold Value
      rw [← defaults_position, hv]
      simp only [hany]
      by_cases hb : t.any (fun i => i.isNone) = true
      · simp only [hb, true_imp_iff, not_true_eq_false, false_imp_iff, and_true, if_true]
      · simp only [hb, false_imp_iff, not_false_eq_true, true_imp_iff, true_and, if_false, Bool.false_eq_true]
        constructor
        · rintro ⟨-, h⟩; rw [← h]
        · intro h; rw [h]; simp
    unfold Right
    rw [hdef]
    cases root with
    | true =>
      simp only [if_true]
      intro r
      constructor
      · rintro ⟨v, hv, hr⟩
        obtain ⟨g1, g2⟩ := (h5 v).1 hv
        exact ⟨g1, (hval g1 v g2 r).2 hr⟩
      · rintro ⟨g1, g2⟩
        have hv := h4 g1
        exact ⟨_, (h5 _).2 ⟨g1, hv⟩, (hval g1 _ hv r).1 g2⟩
    | false =>
      simp only [Bool.false_eq_true, if_false]
      refine ⟨⟨b, _, r, h1, rfl⟩, ?_⟩
      rintro b' r' ⟨v, hv, hr⟩
      obtain ⟨rfl, rfl⟩ := h2 _ _ hv
      exact ⟨h3, fun hb => (hval (h3.1 hb) _ (h4 (h3.1 hb)) r').2 hr⟩
  have gen0 : E.length = 0 → Right root D E (toIx t) (fun b r => b = t.all (fun i => i.isNone) ∧ r = none) := by
    intro h0
    have hdef : Defined D (toIx t) ↔ t.all (fun i => i.isNone) = true := by
      unfold Defined
      rw [← hall]
      constructor
      · rintro (h | h)
        · exact h
        · obtain ⟨r1, r2⟩ := rank_bounds h
          omega
      · exact Or.inl
    have hval : t.all (fun i => i.isNone) = true → ∀ r, (Value D E (toIx t) r ↔ r = none) := by
      intro h r
      have : t.any (fun i => i.isNone) = true := by
        obtain ⟨i, t', rfl⟩ := List.exists_cons_of_ne_nil hne
        simp only [List.all_cons, Bool.and_eq_true] at h
        simp [h.1]
      unfold Value
      simp only [hany, this, true_imp_iff, not_true_eq_false, false_imp_iff, and_true]
    unfold Right
    rw [hdef]
    cases root with
    | true =>
      simp only [if_true]
      intro r
      constructor
      · rintro ⟨g1, g2⟩; exact ⟨g1.symm, (hval g1.symm r).2 g2⟩
      · rintro ⟨g1, g2⟩; exact ⟨g1.symm, (hval g1 r).1 g2⟩
    | false =>
      simp only [Bool.false_eq_true, if_false]
      refine ⟨⟨_, _, rfl, rfl⟩, ?_⟩
      rintro b' r' ⟨rfl, rfl⟩
      exact ⟨Iff.rfl, fun h => (hval h none).2 rfl⟩
  have gen' : (∀ p, D ≠ [p]) → Right root D E (toIx t) (elementOpt root bs dom t D E) := by
    intro hD
    have he : elementOpt root bs dom t D E = fun b r =>
        if E.length = 0 then b = t.all (fun i => i.isNone) ∧ r = none
        else ∃ v, element root bs dom (defaults t D) D E b v ∧ r = if t.any (fun i => i.isNone) then none else some v := by
      funext b r
      unfold elementOpt
      split
      · exact absurd rfl (hD _)
      · exact absurd rfl (hD _)
      · rfl
    rw [he]
    by_cases h0 : E.length = 0
    · simp only [if_pos h0]; exact gen0 h0
    · simp only [if_neg h0]; exact gen h0
  rcases D with _ | ⟨p, _ | ⟨p2, D⟩⟩
  · exact gen' (by simp)
  · -- one dimension
    rcases t with _ | ⟨i, _ | ⟨i2, t⟩⟩
    · simp at hlen
    · cases i with
      | none =>
        have hdef : Defined [p] (toIx [none]) := Or.inl (by simp [toIx])
        have hval : ∀ r, Value [p] E (toIx [none]) r ↔ r = none := by
          intro r
          unfold Value
          have : ∃ i ∈ toIx [none], i = Ix.par none := ⟨_, List.mem_cons_self, rfl⟩
          simp only [this, true_imp_iff, not_true_eq_false, false_imp_iff, and_true]
        unfold Right
        cases root with
        | true => simp [elementOpt, hdef, hval]
        | false =>
          simp only [Bool.false_eq_true, if_false, elementOpt, hdef, hval, iff_true]
          exact ⟨⟨true, none, rfl, rfl⟩, fun b r h => ⟨h.1, fun _ => h.2⟩⟩
      | some i =>
        have : elementOpt root bs dom [some i] [p] E = fun b r => ∃ v, element root bs dom [i] [p] E b v ∧ r = some v := rfl
        rw [this]
        refine element_right root bs dom [p] [p] E E (toIx [some i]) [i] hdom hE hd rfl hbs (by simp [toIx]) (by simp [toIx]) ?_ ?_
        · rfl
        · intro _; rfl
    · simp at hlen
  · exact gen' (by simp)

/-! ## An access whose index is an access to a fixed array -/

theorem composed_ok {α : Type} (al : Lit α) (lo hi : Int) (E : List α) (h : IsArr al [(lo, hi)] E) (inner : Lit Int) (F : List Int)
    (hF : ∀ (k : Nat) (v : Int), F[k]? = some v → get inner k = .ok v) : ∀ (n i : Nat), i + n = F.length →
    ((∀ (k : Nat) (v : Int), i ≤ k → F[k]? = some v → lo ≤ v ∧ v ≤ hi) →
      ∃ G, composed al lo hi inner i n = .ok (some G) ∧ G.length = n ∧
        ∀ (k : Nat) (v : Int), F[i + k]? = some v → ∃ e, E[(v - lo).toNat]? = some e ∧ G[k]? = some e) ∧
    ((∃ (k : Nat) (v : Int), i ≤ k ∧ F[k]? = some v ∧ ¬ (lo ≤ v ∧ v ≤ hi)) → composed al lo hi inner i n = .ok none)
  | 0, i, hi' => by
    constructor
    · intro _
      exact ⟨[], rfl, rfl, fun k v hk => by rw [List.getElem?_eq_none (by omega)] at hk; cases hk⟩
    · rintro ⟨k, v, h1, h2, -⟩
      rw [List.getElem?_eq_none (by omega)] at h2; cases h2
  | n + 1, i, hi' => by
    obtain ⟨v, hv⟩ : ∃ v, F[i]? = some v := ⟨_, List.getElem?_eq_getElem (by omega)⟩
    have ih := composed_ok al lo hi E h inner F hF n (i + 1) (by omega)
    have hg := hF i v hv
    have htot := h.total
    simp only [count, mul_one] at htot
    by_cases hin : lo ≤ v ∧ v ≤ hi
    · obtain ⟨e, he⟩ : ∃ e, E[(v - lo).toNat]? = some e := ⟨_, List.getElem?_eq_getElem (by omega)⟩
      have hge := h.elem _ _ he
      constructor
      · intro hall
        obtain ⟨G, g1, g2, g3⟩ := ih.1 (fun k v hk => hall k v (by omega))
        refine ⟨e :: G, ?_, by simp [g2], ?_⟩
        · simp only [composed, hg, if_neg (show ¬ (v < lo ∨ v > hi) by omega), hge, g1]
        · intro k w hw
          cases k with
          | zero =>
            rw [Nat.add_zero, hv] at hw; cases hw
            exact ⟨e, he, rfl⟩
          | succ k =>
            obtain ⟨e', k1, k2⟩ := g3 k w (by rw [← hw]; congr 1; omega)
            exact ⟨e', k1, by simpa using k2⟩
      · rintro ⟨k, w, h1, h2, h3⟩
        have : i ≠ k := by
          rintro rfl
          rw [hv] at h2; cases h2
          exact h3 hin
        have g := ih.2 ⟨k, w, by omega, h2, h3⟩
        simp only [composed, hg, if_neg (show ¬ (v < lo ∨ v > hi) by omega), hge, g]
    · constructor
      · intro hall
        exact absurd (hall i v (le_refl _) hv) hin
      · intro _
        simp only [composed, hg, if_pos (show v < lo ∨ v > hi by omega)]

/-- **C68**: an access `a[b[i]]` to an array with one dimension, where `b` is a fixed array with any number of dimensions. If all
elements of `b` are in the index set of `a`, the composed array is used: its access with `i` is the nested access, for every `i`;
otherwise nothing is composed. -/
theorem _root_.MZ.C68_compose {α : Type} (a : Lit α) (lo hi : Int) (E : List α) (ha : IsArr a [(lo, hi)] E) (b : Lit Int)
    (D : List (Int × Int)) (F : List Int) (hb : IsArr b D F) :
    ((∀ v ∈ F, lo ≤ v ∧ v ≤ hi) → ∃ G : List α, composed a lo hi b 0 F.length = .ok (some G) ∧ count D = G.length ∧
      ∀ t : List Int, InBox D t → ∃ v e, access b t = .ok (some v) ∧ access a [v] = .ok (some e) ∧
        G[(rank D t).toNat]? = some e) ∧
    ((∃ v ∈ F, ¬ (lo ≤ v ∧ v ≤ hi)) → composed a lo hi b 0 F.length = .ok none) := by
  have key := composed_ok a lo hi E ha b F hb.elem F.length 0 (by omega)
  constructor
  · intro hall
    obtain ⟨G, h1, h2, h3⟩ := key.1 (fun k v _ hk => hall v (List.mem_of_getElem? hk))
    refine ⟨G, h1, by rw [hb.total, h2], fun t ht => ?_⟩
    obtain ⟨v, hv1, hv2⟩ := (C18_access b D F hb t (inBox_length ht)).1 ht
    have hv := hall v (List.mem_of_getElem? hv1)
    obtain ⟨e, he1, he2⟩ := (C18_access a _ E ha [v] rfl).1 ⟨hv.1, hv.2, trivial⟩
    obtain ⟨e', g1, g2⟩ := h3 _ v (by rw [Nat.zero_add]; exact hv1)
    have : rank [(lo, hi)] [v] = v - lo := by simp [rank, count]
    rw [this, g1] at he1
    cases he1
    exact ⟨v, e, hv2, he2, g2⟩
  · rintro ⟨v, hv, hn⟩
    obtain ⟨k, hk, rfl⟩ := List.getElem_of_mem hv
    exact key.2 ⟨k, _, by omega, List.getElem?_eq_getElem hk, hn⟩

/-- A composed array: `[10, 20, 30]` with the indices `3, 1, 3`. -/
example : composed (.vec [10, 20, 30] false (flat [(1, 3)])) 1 3 (.vec [3, 1, 3] false (flat [(1, 3)])) 0 3 =
    .ok (some [30, 10, 30]) := rfl

/-- An access `a[2, x]` meets the hypotheses of `C68_access_partial`. -/
example : ∃ n P, (∀ fuel, n ≤ fuel → flatten false [none] (fun _ => True) (.vec [10, 11, 12, 13, 14, 15] false (flat [(1, 2), (4, 6)]))
    [(1, 2), (4, 6)] [10, 11, 12, 13, 14, 15] [.par (some 2), .var 6] fuel = .con P) ∧
    Right false [(1, 2), (4, 6)] [10, 11, 12, 13, 14, 15] [.par (some 2), .var 6] P := by
  refine C68_access_partial false [none] _ _ _ _ (Wf.isArr (Wf.plain ⟨by simp, by decide⟩ (by decide))) (fun _ _ => trivial) _ rfl
    (by decide) (fun k l u x h => ?_) (fun _ => by simp) ?_
  · rcases k with _ | k <;> simp at h
  · rintro ⟨-, k, q, h, -⟩
    simp [fixed, subDims] at h

end Access
end MZ
