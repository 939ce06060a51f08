import Verif.Json.Expr
import Verif.Arr.Lemmas
import Verif.Linear.Lemmas

/-!
# Nested JSON lists as multi-dimensional arrays (C20)
-/

namespace MZ
namespace Json

/-- The loop of `JSONParser::coerceArray` that flattens nested lists,
`lib/json_parser.cpp:889-926`.  A stack entry `(index, array)` is kept as the elements of the array
from that index on, the top of the stack is the head of the list; `dims` holds the second
components of the C++ vector of the same name, whose first components are all 1. -/
def coerceLoop (dim : Nat) (stack : List (List JE)) (dims : List Nat) (els : List JE) :
    Res (List JE × List Nat) :=
  match stack with
  | [] => .ok (els, dims)
  | top :: st =>
    if st.length + 1 = dim then coerceLoop dim st dims (els ++ top)
    else
      match top with
      | [] => coerceLoop dim st dims els
      | e :: es =>
        match h : e.vec? with
        | some l =>
          if dims.length < st.length + 2 then coerceLoop dim (l :: es :: st) (dims ++ [l.length]) els
          else if l.length ≠ dims.getD (st.length + 1) 0 then .err
          else coerceLoop dim (l :: es :: st) dims els
        | none => .err
  termination_by sizeOf stack
  decreasing_by all_goals (first | (have := JE.vec?_lt h; simp_wf; omega) | (simp_wf; try omega))

/-- The first element of the list is itself an array literal, `lib/json_parser.cpp:888`. -/
def startsNested : List JE → Bool
  | e :: _ => e.vec?.isSome
  | [] => false

/-- The part of `JSONParser::coerceArray` that gives a list its dimensions,
`lib/json_parser.cpp:878-928`, for a declared array type with `dim` dimensions (tuples, which later
lines treat, are left out). -/
def coerceArray (dim : Nat) (l : List JE) : Res JE :=
  if l = [] then .ok (.arr l)
  else if 1 < dim ∧ startsNested l = true then do
    let r ← coerceLoop dim [l] [l.length] []
    .ok (.arrN r.2 r.1)
  else .ok (.arr l)

/-! ## Specification -/

/-- `Items shape l f`: the elements of `l` are lists nested as `shape` says, and `f` is everything in
them from left to right. -/
def Items : List Nat → List JE → List JE → Prop
  | [], l, f => f = l
  | n :: shape, l, f => ∃ subs fls, l = subs.map JE.arr ∧
      List.Forall₂ (fun s g => s.length = n ∧ Items shape s g) subs fls ∧ f = fls.flatten

/-- `l` is a rectangular nesting of lists with the lengths `shape`, and `f` is its contents in
row-major order. -/
def Rect : List Nat → List JE → List JE → Prop
  | [], _, _ => False
  | n :: shape, l, f => l.length = n ∧ Items shape l f

/-- No JSON object stands in the first `k` levels of the nested list. -/
def NoObjects : Nat → List JE → Prop
  | 0, _ => True
  | k + 1, l => ∀ e ∈ l, match e with
    | .arr l' => NoObjects k l'
    | e => e.vec? = none

/-- Follow a path of 1-based positions into nested lists. -/
def follow : JE → List Int → Option JE
  | e, [] => some e
  | .arr l, x :: xs => if 1 ≤ x then (l[(x - 1).toNat]?).bind (fun e => follow e xs) else none
  | _, _ :: _ => none

/-! ## Proofs -/

theorem Items.nil (shape : List Nat) : Items shape [] [] := by
  cases shape with
  | nil => rfl
  | cons n shape => exact ⟨[], [], rfl, .nil, rfl⟩

theorem Items.arr_cons {n : Nat} {shape : List Nat} {l es f g : List JE} (hl : l.length = n)
    (h1 : Items shape l f) (h2 : Items (n :: shape) es g) : Items (n :: shape) (.arr l :: es) (f ++ g) := by
  obtain ⟨subs, fls, rfl, h3, rfl⟩ := h2
  exact ⟨l :: subs, f :: fls, rfl, .cons ⟨hl, h1⟩ h3, rfl⟩

theorem Items.cons_inv {n : Nat} {shape : List Nat} {e : JE} {es f : List JE}
    (h : Items (n :: shape) (e :: es) f) :
    ∃ l f1 f2, e = .arr l ∧ l.length = n ∧ Items shape l f1 ∧ Items (n :: shape) es f2 ∧ f = f1 ++ f2 := by
  obtain ⟨subs, fls, e1, h3, rfl⟩ := h
  cases h3 with
  | nil => simp at e1
  | cons h4 h5 =>
    simp only [List.map_cons, List.cons.injEq] at e1
    obtain ⟨rfl, rfl⟩ := e1
    exact ⟨_, _, _, rfl, h4.1, h4.2, ⟨_, _, rfl, h5, rfl⟩, rfl⟩

theorem Items.det {shape : List Nat} {l f g : List JE} (h1 : Items shape l f) (h2 : Items shape l g) : f = g := by
  induction shape generalizing l f g with
  | nil => exact h1.trans h2.symm
  | cons n shape ih =>
    induction l generalizing f g with
    | nil =>
      obtain ⟨subs, fls, e1, h3, rfl⟩ := h1
      obtain ⟨subs', fls', e1', h3', rfl⟩ := h2
      have a := List.map_eq_nil_iff.1 e1.symm
      have b := List.map_eq_nil_iff.1 e1'.symm
      subst a b
      cases h3
      cases h3'
      rfl
    | cons e es ihl =>
      obtain ⟨l1, f1, f2, rfl, _, a1, a2, rfl⟩ := h1.cons_inv
      obtain ⟨l2, g1, g2, e2, _, b1, b2, rfl⟩ := h2.cons_inv
      cases e2
      rw [ih a1 b1, ihl a2 b2]

theorem NoObjects.mono {j k : Nat} (hjk : j ≤ k) {l : List JE} (h : NoObjects k l) : NoObjects j l := by
  induction j generalizing k l with
  | zero => trivial
  | succ j ih =>
    cases k with
    | zero => omega
    | succ k =>
      intro e he
      have := h e he
      split
      · exact ih (by omega) this
      · rename_i hne
        split at this
        · exact absurd rfl (hne _)
        · exact this

theorem NoObjects.tail {k : Nat} {e : JE} {es : List JE} (h : NoObjects (k + 1) (e :: es)) :
    NoObjects (k + 1) es := fun x hx => h x (by simp [hx])

theorem NoObjects.head_arr {k : Nat} {l es : List JE} (h : NoObjects (k + 1) (.arr l :: es)) :
    NoObjects k l := h (.arr l) (by simp)

theorem NoObjects.head_other {k : Nat} {e : JE} {es : List JE} (h : NoObjects (k + 1) (e :: es))
    (he : ∀ l, e ≠ .arr l) : e.vec? = none := by
  have := h e (by simp)
  split at this
  · exact absurd rfl (he _)
  · exact this

theorem Items.noObjects {shape : List Nat} {l f : List JE} (h : Items shape l f) : NoObjects shape.length l := by
  induction shape generalizing l f with
  | nil => trivial
  | cons n shape ih =>
    obtain ⟨subs, fls, rfl, h3, hf⟩ := h
    intro e he
    obtain ⟨s, hs, rfl⟩ := List.mem_map.1 he
    clear he hf
    induction h3 with
    | nil => simp at hs
    | cons h4 _ ihh =>
      rcases List.mem_cons.1 hs with rfl | hs
      · exact ih h4.2
      · exact ihh hs

theorem coerceLoop_bottom {dim : Nat} (top : List JE) {st : List (List JE)} (dims : List Nat) (els : List JE)
    (h : st.length + 1 = dim) : coerceLoop dim (top :: st) dims els = coerceLoop dim st dims (els ++ top) := by
  rw [coerceLoop.eq_def]
  simp only
  rw [if_pos h]

theorem coerceLoop_nil {dim : Nat} {st : List (List JE)} (dims : List Nat) (els : List JE)
    (h : st.length + 1 ≠ dim) : coerceLoop dim ([] :: st) dims els = coerceLoop dim st dims els := by
  rw [coerceLoop.eq_def]
  simp only
  rw [if_neg h]

theorem coerceLoop_arr {dim : Nat} (l es : List JE) {st : List (List JE)} (dims : List Nat) (els : List JE)
    (h : st.length + 1 ≠ dim) : coerceLoop dim ((.arr l :: es) :: st) dims els =
      if dims.length < st.length + 2 then coerceLoop dim (l :: es :: st) (dims ++ [l.length]) els
        else if l.length ≠ dims.getD (st.length + 1) 0 then .err
        else coerceLoop dim (l :: es :: st) dims els := by
  rw [coerceLoop.eq_def]
  simp only
  rw [if_neg h]
  rfl

theorem coerceLoop_other {dim : Nat} (e : JE) (es : List JE) {st : List (List JE)} (dims : List Nat) (els : List JE)
    (h : st.length + 1 ≠ dim) (he : e.vec? = none) : coerceLoop dim ((e :: es) :: st) dims els = .err := by
  rw [coerceLoop.eq_def]
  simp only
  rw [if_neg h]
  split
  · rename_i h2
    rw [he] at h2
    exact absurd h2 (by simp)
  · rfl

/-- Processing the list on top of the stack when the lengths of all deeper levels that can occur are
known already. -/
theorem coerceLoop_known (dim : Nat) (dims : List Nat) (shape : List Nat) :
    ∀ (top : List JE) (st : List (List JE)) (els : List JE), NoObjects shape.length top →
      dims.drop (st.length + 1) = shape → st.length + 1 ≤ dims.length → dims.length ≤ dim →
      (dims.length = dim ∨ dims.getLast? = some 0) → (shape = [] → dims.length < dim → top = []) →
      (∃ f, Items shape top f ∧ coerceLoop dim (top :: st) dims els = coerceLoop dim st dims (els ++ f)) ∨
      ((∀ f, ¬ Items shape top f) ∧ coerceLoop dim (top :: st) dims els = .err) := by
  induction shape with
  | nil =>
    intro top st els hno hsh h1 h2 h3 h4
    left
    refine ⟨top, rfl, ?_⟩
    have hlen : dims.length = st.length + 1 := by
      have := List.drop_eq_nil_iff.1 hsh
      omega
    by_cases hd : st.length + 1 = dim
    · rw [coerceLoop_bottom _ _ _ hd]
    · have := h4 rfl (by omega)
      subst this
      rw [coerceLoop_nil _ _ hd]
      simp
  | cons n shape ih =>
    intro top st els hno hsh h1 h2 h3 h4
    have hlen : st.length + 1 < dims.length := by
      by_contra hc
      rw [List.drop_eq_nil_iff.2 (by omega)] at hsh
      exact absurd hsh (by simp)
    have hn : dims.getD (st.length + 1) 0 = n := by
      rw [List.getD_eq_getElem?_getD, ← List.head?_drop, hsh]
      rfl
    have hsh' : dims.drop (st.length + 1 + 1) = shape := by
      rw [← List.tail_drop, hsh]
      rfl
    induction top generalizing els with
    | nil =>
      left
      refine ⟨[], Items.nil _, ?_⟩
      rw [coerceLoop_nil _ _ (by omega)]
      simp
    | cons e es ihe =>
      cases e with
      | arr l =>
        rw [coerceLoop_arr _ _ _ _ (by omega), if_neg (by omega)]
        by_cases hl : l.length = n
        · rw [hn, if_neg (by simp [hl])]
          have hz : shape = [] → dims.length < dim → l = [] := by
            intro h5 h6
            have h7 : dims.getLast? = some 0 := by
              rcases h3 with h3 | h3
              · omega
              · exact h3
            have h8 : dims.length = st.length + 1 + 1 := by
              rw [h5] at hsh'
              have := List.drop_eq_nil_iff.1 hsh'
              omega
            have h9 : n = 0 := by
              rw [List.getLast?_eq_getElem?, h8] at h7
              rw [List.getD_eq_getElem?_getD] at hn
              simp only [Nat.add_sub_cancel] at h7
              rw [h7] at hn
              simpa using hn.symm
            rw [h9] at hl
            exact List.eq_nil_of_length_eq_zero hl
          rcases ih l (es :: st) els hno.head_arr (by simpa using hsh') (by simp; omega) h2 h3 hz with ⟨f, f1, f2⟩ | ⟨f1, f2⟩
          · rw [f2]
            rcases ihe (els ++ f) hno.tail (by simp) with ⟨g, g1, g2⟩ | ⟨g1, g2⟩
            · left
              exact ⟨f ++ g, Items.arr_cons hl f1 g1, by rw [g2, List.append_assoc]⟩
            · right
              refine ⟨?_, g2⟩
              intro x hx
              obtain ⟨_, _, x2, _, _, _, h6, _⟩ := hx.cons_inv
              exact g1 x2 h6
          · right
            refine ⟨?_, f2⟩
            intro x hx
            obtain ⟨l', x1, _, h5, _, h6, _⟩ := hx.cons_inv
            cases h5
            exact f1 x1 h6
        · rw [hn, if_pos hl]
          right
          refine ⟨?_, rfl⟩
          intro x hx
          obtain ⟨l', _, _, h5, h6, _⟩ := hx.cons_inv
          cases h5
          exact hl h6
      | _ =>
        right
        refine ⟨?_, coerceLoop_other _ _ _ _ (by omega) (hno.head_other (by simp))⟩
        intro x hx
        obtain ⟨l', _, _, h5, _⟩ := hx.cons_inv
        cases h5

theorem Items.pad_iff {a : List Nat} (b : List Nat) (ha : a.getLast? = some 0) {l f : List JE} :
    Items (a ++ b) l f ↔ Items a l f := by
  induction a generalizing l f with
  | nil => simp at ha
  | cons n a ih =>
    have key : ∀ s g, s.length = n → (Items (a ++ b) s g ↔ Items a s g) := by
      intro s g hs
      cases a with
      | nil =>
        have h0 : n = 0 := by simpa using ha
        rw [h0] at hs
        rw [List.eq_nil_of_length_eq_zero hs]
        constructor
        · intro h
          exact h.det (Items.nil _) ▸ rfl
        · intro h
          rw [h.det (Items.nil _)]
          exact Items.nil _
      | cons m a =>
        exact ih (by simpa using ha)
    constructor
    · rintro ⟨subs, fls, e1, h3, e2⟩
      exact ⟨subs, fls, e1, h3.imp (fun s g h => ⟨h.1, (key s g h.1).1 h.2⟩), e2⟩
    · rintro ⟨subs, fls, e1, h3, e2⟩
      exact ⟨subs, fls, e1, h3.imp (fun s g h => ⟨h.1, (key s g h.1).2 h.2⟩), e2⟩

theorem Items.prefix {ext shape : List Nat} {l f g : List JE} (h1 : Items ext l f) (h2 : Items shape l g)
    (hl : ext.length ≤ shape.length) (hz : 0 ∉ (l.length :: ext).dropLast) : ext = shape.take ext.length := by
  induction ext generalizing shape l f g with
  | nil => simp
  | cons n ext ih =>
    cases shape with
    | nil => simp at hl
    | cons m shape =>
      cases l with
      | nil => simp at hz
      | cons e es =>
        obtain ⟨s, f1, _, rfl, rfl, i1, _⟩ := h1.cons_inv
        obtain ⟨s', g1, _, e2, rfl, j1, _⟩ := h2.cons_inv
        cases e2
        have := ih i1 j1 (by simpa using hl) (by
          intro h
          apply hz
          rw [List.dropLast_cons_of_ne_nil (by simp)]
          exact List.mem_cons_of_mem _ h)
        simp only [List.length_cons, List.take_succ_cons]
        rw [← this]

/-- Processing a list at a level where no deeper length is known yet. -/
theorem coerceLoop_descent (dim k : Nat) : ∀ (top : List JE) (st : List (List JE)) (dims : List Nat) (els : List JE),
    NoObjects k top → st.length + 1 + k = dim → dims.length = st.length + 1 → dims.getLast? = some top.length →
    (∃ ext f, Items ext top f ∧ ext.length ≤ k ∧ (ext.length = k ∨ (top.length :: ext).getLast? = some 0) ∧
      0 ∉ (top.length :: ext).dropLast ∧
      coerceLoop dim (top :: st) dims els = coerceLoop dim st (dims ++ ext) (els ++ f)) ∨
    ((∀ shape f, shape.length = k → ¬ Items shape top f) ∧ coerceLoop dim (top :: st) dims els = .err) := by
  induction k with
  | zero =>
    intro top st dims els hno h1 h2 h3
    left
    refine ⟨[], top, rfl, by simp, Or.inl rfl, by simp, ?_⟩
    rw [coerceLoop_bottom _ _ _ (by omega)]
    simp
  | succ k ih =>
    intro top st dims els hno h1 h2 h3
    cases top with
    | nil =>
      left
      refine ⟨[], [], rfl, by simp, Or.inr rfl, by simp, ?_⟩
      rw [coerceLoop_nil _ _ (by omega)]
      simp
    | cons e es =>
      cases e with
      | arr l =>
        rw [coerceLoop_arr _ _ _ _ (by omega), if_pos (by omega)]
        rcases ih l (es :: st) (dims ++ [l.length]) els hno.head_arr (by simp only [List.length_cons]; omega)
          (by simp only [List.length_append, List.length_cons, List.length_nil]; omega) (by simp) with
          ⟨ext, f, i1, i2, i3, i5, i4⟩ | ⟨i1, i2⟩
        · rw [i4]
          have hdd : dims ++ [l.length] ++ ext = dims ++ (l.length :: ext) := by simp
          rw [hdd]
          have hdr : (dims ++ (l.length :: ext)).drop (st.length + 1) = l.length :: ext := by
            rw [← h2, List.drop_left]
          rcases coerceLoop_known dim (dims ++ (l.length :: ext)) (l.length :: ext) es st (els ++ f)
            (hno.tail.mono (by simp only [List.length_cons]; omega)) hdr
            (by simp only [List.length_append, List.length_cons]; omega)
            (by simp only [List.length_append, List.length_cons]; omega)
            (by
              rcases i3 with i3 | i3
              · left
                simp only [List.length_append, List.length_cons]
                omega
              · right
                rw [List.getLast?_append, i3]
                rfl)
            (by simp) with ⟨g, g1, g2⟩ | ⟨g1, g2⟩
          · left
            refine ⟨l.length :: ext, f ++ g, Items.arr_cons rfl i1 g1, by simpa using i2, ?_, ?_, by rw [g2, List.append_assoc]⟩
            · rcases i3 with i3 | i3
              · left
                simp [i3]
              · right
                rw [List.getLast?_cons_cons]
                exact i3
            · rw [List.dropLast_cons_of_ne_nil (by simp)]
              simp only [List.length_cons, List.mem_cons, not_or]
              exact ⟨by omega, i5⟩
          · right
            refine ⟨?_, g2⟩
            intro shape x hs hx
            cases shape with
            | nil => simp at hs
            | cons n shape =>
              obtain ⟨l', x1, x2, h5, rfl, h7, h8, _⟩ := hx.cons_inv
              cases h5
              have hlen : shape.length = k := by simpa using hs
              have hp := i1.prefix h7 (by omega) i5
              rcases i3 with i3 | i3
              · rw [i3, ← hlen, List.take_length] at hp
                rw [hp] at g1
                exact g1 _ h8
              · have : l.length :: shape = (l.length :: ext) ++ shape.drop ext.length := by
                  conv_lhs => rw [← List.take_append_drop ext.length shape, ← hp]
                  rfl
                rw [this] at h8
                exact g1 _ ((Items.pad_iff _ i3).1 h8)
        · right
          refine ⟨?_, i2⟩
          intro shape x hs hx
          cases shape with
          | nil => simp at hs
          | cons n shape =>
            obtain ⟨l', x1, x2, h5, h6, h7, h8, _⟩ := hx.cons_inv
            cases h5
            exact i1 shape x1 (by simpa using hs) h7
      | _ =>
        right
        refine ⟨?_, coerceLoop_other _ _ _ _ (by omega) (hno.head_other (by simp))⟩
        intro shape x hs hx
        cases shape with
        | nil => simp at hs
        | cons n shape =>
          obtain ⟨l', _, _, h5, _⟩ := hx.cons_inv
          cases h5

/-- The whole loop. -/
theorem coerceLoop_spec (dim : Nat) (hd : 1 ≤ dim) (l : List JE) (hno : NoObjects (dim - 1) l) :
    (∃ ext f, Items ext l f ∧ ext.length + 1 ≤ dim ∧ (ext.length + 1 = dim ∨ (l.length :: ext).getLast? = some 0) ∧
      0 ∉ (l.length :: ext).dropLast ∧ coerceLoop dim [l] [l.length] [] = .ok (f, l.length :: ext)) ∨
    ((∀ shape f, shape.length = dim → ¬ Rect shape l f) ∧ coerceLoop dim [l] [l.length] [] = .err) := by
  rcases coerceLoop_descent dim (dim - 1) l [] [l.length] [] hno (by simp; omega) rfl rfl with
    ⟨ext, f, i1, i2, i3, i5, i4⟩ | ⟨i1, i2⟩
  · left
    refine ⟨ext, f, i1, by omega, ?_, i5, ?_⟩
    · rcases i3 with i3 | i3
      · left; omega
      · exact Or.inr i3
    · rw [i4, coerceLoop]
      rfl
  · right
    refine ⟨?_, i2⟩
    intro shape f hs hr
    cases shape with
    | nil => exact hr
    | cons n shape => exact i1 shape f (by simp only [List.length_cons] at hs; omega) hr.2

/-- Index sets `1..n` for the given lengths. -/
def boxOf (shape : List Nat) : List (Int × Int) := shape.map (fun n : Nat => ((1 : Int), (n : Int)))

theorem Items.length {shape : List Nat} {l f : List JE} (h : Items shape l f) :
    (f.length : Int) = l.length * Arr.count (boxOf shape) := by
  induction shape generalizing l f with
  | nil =>
    rw [show f = l from h]
    simp [boxOf, Arr.count]
  | cons n shape ih =>
    obtain ⟨subs, fls, rfl, h3, rfl⟩ := h
    induction h3 with
    | nil => simp
    | cons h4 h5 ihh =>
      rw [List.flatten_cons, List.length_append]
      push_cast
      rw [ihh, ih h4.2, h4.1]
      simp only [boxOf, List.map_cons, Arr.count, List.length_cons, Nat.cast_add, Nat.cast_one]
      have : max (0 : Int) ((n : Int) - 1 + 1) = n := by omega
      rw [this]
      ring

theorem Items.get {shape : List Nat} {l f : List JE} (h : Items shape l f) (i : Nat) (hi : i < l.length)
    (xs : List Int) (hx : Arr.InBox (boxOf shape) xs) :
    (l[i]?).bind (fun e => follow e xs) =
      f[((i : Int) * Arr.count (boxOf shape) + Arr.rank (boxOf shape) xs).toNat]? := by
  induction shape generalizing l f i xs with
  | nil =>
    cases xs with
    | nil =>
      rw [show f = l from h]
      have : (((i : Int) * Arr.count (boxOf []) + Arr.rank (boxOf []) []).toNat) = i := by
        simp [boxOf, Arr.count, Arr.rank]
      rw [this, List.getElem?_eq_getElem hi]
      rfl
    | cons x xs => exact absurd hx (by simp [boxOf, Arr.InBox])
  | cons n shape ih =>
    cases xs with
    | nil => exact absurd hx (by simp [boxOf, Arr.InBox])
    | cons x xs =>
      obtain ⟨hx1, hx2, hx3⟩ := hx
      obtain ⟨subs, fls, rfl, h3, rfl⟩ := h
      have hrb := Arr.rank_bounds (D := boxOf shape) hx3
      have hcn := Arr.count_nonneg (boxOf shape)
      have hm : max (0 : Int) ((n : Int) - 1 + 1) = n := by omega
      have hcc : Arr.count (boxOf (n :: shape)) = n * Arr.count (boxOf shape) := by
        simp only [boxOf, List.map_cons, Arr.count, hm]
      have hrr : Arr.rank (boxOf (n :: shape)) (x :: xs) = (x - 1) * Arr.count (boxOf shape) + Arr.rank (boxOf shape) xs := rfl
      have hb2 : (x - 1) * Arr.count (boxOf shape) + Arr.rank (boxOf shape) xs < n * Arr.count (boxOf shape) := by
        have : (x - 1 + 1) * Arr.count (boxOf shape) ≤ n * Arr.count (boxOf shape) :=
          Int.mul_le_mul_of_nonneg_right (by omega) hcn
        rw [Int.add_mul, Int.one_mul] at this
        omega
      have hb1 : 0 ≤ (x - 1) * Arr.count (boxOf shape) + Arr.rank (boxOf shape) xs := by
        have := Int.mul_nonneg (show 0 ≤ x - 1 by omega) hcn
        omega
      rw [hcc, hrr]
      induction h3 generalizing i with
      | nil => simp at hi
      | @cons s g subs fls h4 h5 ihh =>
        have hgl := h4.2.length
        rw [h4.1] at hgl
        cases i with
        | zero =>
          have := ih h4.2 (x - 1).toNat (by rw [h4.1]; omega) xs hx3
          simp only [List.map_cons, List.getElem?_cons_zero, Option.bind_some, follow]
          rw [if_pos (by omega), this, List.flatten_cons]
          have e1 : (((x - 1).toNat : Int)) = x - 1 := by omega
          rw [e1]
          simp only [Nat.cast_zero, Int.zero_mul, Int.zero_add]
          rw [List.getElem?_append_left (by omega)]
        | succ i =>
          simp only [List.map_cons, List.getElem?_cons_succ]
          rw [ihh i (by simpa using hi), List.flatten_cons]
          have hnn : 0 ≤ (i : Int) * (n * Arr.count (boxOf shape)) :=
            Int.mul_nonneg (by omega) (Int.mul_nonneg (by omega) hcn)
          have e2 : ((i + 1 : Nat) : Int) * (n * Arr.count (boxOf shape)) =
              (i : Int) * (n * Arr.count (boxOf shape)) + n * Arr.count (boxOf shape) := by
            push_cast
            ring
          rw [e2, List.getElem?_append_right (by omega)]
          congr 1
          omega

end Json

open Json

/-- **C20 (nested JSON lists become the matching array).**  Reading a list for an array with
`dim ≥ 2` dimensions, when its first element is itself a list: if the list is a rectangular nesting
with lengths `shape` (one per dimension) of which all but the last are positive, the result is the
array with exactly these lengths and the contents in row-major order. -/
theorem C20_rect (dim : Nat) (l f : List JE) (shape : List Nat) (hd : 2 ≤ dim) (hs : shape.length = dim)
    (hn : startsNested l = true) (hr : Rect shape l f) (hz : 0 ∉ shape.dropLast) :
    coerceArray dim l = .ok (.arrN shape f) := by
  have hl : l ≠ [] := by
    rintro rfl
    simp [startsNested] at hn
  unfold coerceArray
  rw [if_neg hl, if_pos ⟨by omega, hn⟩]
  cases shape with
  | nil => exact absurd hr id
  | cons n shape =>
    obtain ⟨rfl, hi⟩ := hr
    have hno : NoObjects (dim - 1) l := by
      rw [← hs]
      exact hi.noObjects
    rcases coerceLoop_spec dim (by omega) l hno with ⟨ext, g, i1, i2, i3, i5, i4⟩ | ⟨i1, _⟩
    · have hlen : shape.length + 1 = dim := by simpa using hs
      have hp := i1.prefix hi (by omega) i5
      rcases i3 with i3 | i3
      · have he : ext = shape := by
          rw [hp, show ext.length = shape.length by omega, List.take_length]
        subst he
        rw [i4, i1.det hi]
        rfl
      · have hle : ext.length = shape.length := by
          by_contra hc
          have hmem : (0 : Nat) ∈ l.length :: ext := List.mem_of_getLast? i3
          apply hz
          have hsub : l.length :: ext = (l.length :: shape).take (ext.length + 1) := by
            rw [List.take_succ_cons, ← hp]
          rw [hsub] at hmem
          rw [List.dropLast_eq_take]
          have : ext.length + 1 ≤ (l.length :: shape).length - 1 := by
            simp only [List.length_cons]
            omega
          exact List.take_subset_take_left _ this hmem
        have he : ext = shape := by
          rw [hp, hle, List.take_length]
        subst he
        rw [i4, i1.det hi]
        rfl
    · exact absurd ⟨rfl, hi⟩ (i1 (l.length :: shape) f hs)

/-- **C20, errors.**  The reader raises an error exactly when the list is not a rectangular nesting
with one level per dimension, if no JSON object stands at a level where a list is expected. -/
theorem C20_error_iff (dim : Nat) (l : List JE) (hd : 2 ≤ dim) (hn : startsNested l = true)
    (hno : NoObjects (dim - 1) l) :
    coerceArray dim l = .err ↔ ¬ ∃ shape f, shape.length = dim ∧ Rect shape l f := by
  have hl : l ≠ [] := by
    rintro rfl
    simp [startsNested] at hn
  unfold coerceArray
  rw [if_neg hl, if_pos ⟨by omega, hn⟩]
  rcases coerceLoop_spec dim (by omega) l hno with ⟨ext, g, i1, i2, i3, i5, i4⟩ | ⟨i1, i2⟩
  · rw [i4]
    constructor
    · intro h
      exact absurd h (by simp)
    · intro h
      exfalso
      apply h
      rcases i3 with i3 | i3
      · exact ⟨l.length :: ext, g, by simpa using i3, rfl, i1⟩
      · refine ⟨l.length :: (ext ++ List.replicate (dim - (ext.length + 1)) 0), g, ?_, rfl, ?_⟩
        · simp only [List.length_append, List.length_cons, List.length_replicate]
          omega
        · cases ext with
          | nil =>
            have : l.length = 0 := by simpa using i3
            exact absurd (List.eq_nil_of_length_eq_zero this) hl
          | cons n ext =>
            rw [List.getLast?_cons_cons] at i3
            exact (Items.pad_iff _ i3).2 i1
  · rw [i2]
    refine ⟨fun _ => ?_, fun _ => rfl⟩
    rintro ⟨shape, f, h1, h2⟩
    exact i1 shape f h1 h2

/-- **C20, elements.**  In a rectangular nesting, the element found by following the 1-based
positions `x₁, …, xₙ` is the element of the row-major contents at that index tuple's rank, so the
array the reader builds has the nested element at every index. -/
theorem C20_element (shape : List Nat) (l f : List JE) (hr : Rect shape l f) (xs : List Int)
    (hx : Arr.InBox (boxOf shape) xs) :
    follow (.arr l) xs = f[(Arr.rank (boxOf shape) xs).toNat]? ∧
      (f.length : Int) = Arr.count (boxOf shape) := by
  cases shape with
  | nil => exact absurd hr id
  | cons n shape =>
    obtain ⟨rfl, hi⟩ := hr
    have hm : max (0 : Int) ((l.length : Int) - 1 + 1) = l.length := by omega
    refine ⟨?_, ?_⟩
    · cases xs with
      | nil => exact absurd hx (by simp [boxOf, Arr.InBox])
      | cons x xs =>
        obtain ⟨h1, h2, h3⟩ := hx
        have := hi.get (x - 1).toNat (by omega) xs h3
        simp only [follow]
        rw [if_pos h1, this]
        have e1 : (((x - 1).toNat : Int)) = x - 1 := by omega
        rw [e1]
        rfl
    · rw [hi.length]
      simp only [boxOf, List.map_cons, Arr.count, hm]

/-- **C20 fails for empty inner lists.**  For a three-dimensional array, `[[], []]` is a rectangular
nesting, but the reader builds an array with only two dimensions. -/
theorem C20_empty_fails :
    Rect [2, 0, 0] [.arr [], .arr []] [] ∧
    coerceArray 3 [.arr [], .arr []] = .ok (.arrN [2, 0] []) := by
  constructor
  · exact ⟨rfl, [[], []], [[], []], rfl, .cons ⟨rfl, Items.nil _⟩ (.cons ⟨rfl, Items.nil _⟩ .nil), rfl⟩
  · unfold coerceArray
    rw [if_neg (by simp), if_pos ⟨by decide, rfl⟩]
    simp [coerceLoop, JE.vec?]

/-- **C20 fails for objects.**  For a two-dimensional array the list `[{"a": 1}]`, which is not a
nesting of lists, is accepted: the object is taken for the list of its fields. -/
theorem C20_object_fails :
    (¬ ∃ shape f, shape.length = 2 ∧ Rect shape [.record [(['a'], .int 1)]] f) ∧
    coerceArray 2 [.record [(['a'], .int 1)]] = .ok (.arrN [1, 1] [.field ['a'] (.int 1)]) := by
  constructor
  · rintro ⟨shape, f, hs, hr⟩
    match shape, hs, hr with
    | [n, m], _, hr =>
      obtain ⟨l', _, _, h5, _⟩ := hr.2.cons_inv
      cases h5
  · unfold coerceArray
    rw [if_neg (by simp), if_pos ⟨by decide, rfl⟩]
    simp [coerceLoop, JE.vec?]

/-- Non-vacuity: a 2 × 3 array, and a ragged list. -/
example : coerceArray 2 [.arr [.int 1, .int 2, .int 3], .arr [.int 4, .int 5, .int 6]] =
    .ok (.arrN [2, 3] [.int 1, .int 2, .int 3, .int 4, .int 5, .int 6]) :=
  C20_rect 2 _ _ [2, 3] (by decide) rfl rfl
    ⟨rfl, [[.int 1, .int 2, .int 3], [.int 4, .int 5, .int 6]], _, rfl, .cons ⟨rfl, rfl⟩ (.cons ⟨rfl, rfl⟩ .nil), rfl⟩
    (by decide)
example : coerceArray 2 [.arr [.int 1], .arr []] = .err := by
  simp [coerceArray, startsNested, coerceLoop, JE.vec?]

end MZ
