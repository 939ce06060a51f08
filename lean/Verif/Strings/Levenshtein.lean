import Mathlib.Data.List.Basic
import Mathlib.Algebra.Order.Ring.Nat
import Mathlib.Tactic.Linarith
/-!
# C25: edit distance (lib/aststring.cpp 27–54)

Model of `ASTString::levenshteinDistance`, specification by single edits, and the proof.
-/
namespace MZ
namespace Lev

/-! ## Model -/

/-- `v[i] = x` -/
def set (v : Nat → Nat) (i x : Nat) : Nat → Nat := fun k => if k = i then x else v k

/-- aststring.cpp 45–50: the inner loop from column `j` on. The two rows are `dp0` and `dp1`; `c` is
`s[i-1]`. Reading `t[j-1]` outside the string cannot happen since `j ≤ n` is tested first. -/
def columns (c : Char) (t : List Char) (dp0 : Nat → Nat) (j : Nat) (dp1 : Nat → Nat) : Nat → Nat :=
  if h : j ≤ t.length ∧ 1 ≤ j then
    let del := dp0 j + 1
    let ins := dp1 (j - 1) + 1
    let sub := dp0 (j - 1) + (if c ≠ t[j - 1]'(by omega) then 1 else 0)
    columns c t dp0 (j + 1) (set dp1 j (min del (min ins sub)))
  else dp1
termination_by t.length + 1 - j

/-- aststring.cpp 43–52: the outer loop; `std::swap` exchanges the rows after each line. -/
def rows (t : List Char) : List Char → Nat → (Nat → Nat) → (Nat → Nat) → (Nat → Nat)
  | [], _, dp0, _ => dp0
  | c :: s, i, dp0, dp1 =>
    let dp1 := set dp1 0 i
    let dp1 := columns c t dp0 1 dp1
    rows t s (i + 1) dp1 dp0

/-- aststring.cpp 27–54 `levenshteinDistance` (lengths below 2^31, so that the `int` counters suffice; the
assertions `m > 0`, `n > 0` hold for all identifiers). -/
def distance (s t : List Char) : Nat := rows t s 1 (fun i => i) (fun _ => 0) t.length

/-! ## Specification -/

/-- One insertion, deletion or substitution of a character. -/
inductive Edit : List Char → List Char → Prop
  | insert (a b : List Char) (c : Char) : Edit (a ++ b) (a ++ c :: b)
  | delete (a b : List Char) (c : Char) : Edit (a ++ c :: b) (a ++ b)
  | replace (a b : List Char) (c d : Char) : Edit (a ++ c :: b) (a ++ d :: b)

/-- `n` edits in a row. -/
inductive Edits : Nat → List Char → List Char → Prop
  | none (s : List Char) : Edits 0 s s
  | step {n : Nat} {s u t : List Char} : Edit s u → Edits n u t → Edits (n + 1) s t

/-! ## Proof -/

/-- Recursive form. -/
def lev : List Char → List Char → Nat
  | [], t => t.length
  | s, [] => s.length
  | a :: s, b :: t => min (lev s (b :: t) + 1) (min (lev (a :: s) t + 1) (lev s t + if a ≠ b then 1 else 0))
termination_by s t => s.length + t.length

theorem lev_nil (t : List Char) : lev [] t = t.length := by rw [lev]
theorem lev_nil' (s : List Char) : lev s [] = s.length := by cases s <;> simp [lev]
theorem lev_cons (a b : Char) (s t : List Char) : lev (a :: s) (b :: t) =
    min (lev s (b :: t) + 1) (min (lev (a :: s) t + 1) (lev s t + if a ≠ b then 1 else 0)) := by rw [lev]

theorem lev_del (a : Char) (s t : List Char) : lev (a :: s) t ≤ lev s t + 1 := by
  cases t with
  | nil => simp [lev_nil']
  | cons b t => rw [lev_cons]; exact min_le_left _ _

theorem lev_ins (b : Char) (s t : List Char) : lev s (b :: t) ≤ lev s t + 1 := by
  cases s with
  | nil => simp [lev_nil]
  | cons a s => rw [lev_cons]; exact (min_le_right _ _).trans (min_le_left _ _)

theorem lev_undel (a : Char) (s t : List Char) : lev s t ≤ lev (a :: s) t + 1 := by
  induction t with
  | nil => simp [lev_nil']; omega
  | cons b t ih =>
    rw [lev_cons]
    have := lev_ins b s t
    omega

theorem lev_sub (c d : Char) (s t : List Char) : lev (c :: s) t ≤ lev (d :: s) t + 1 := by
  induction t with
  | nil => simp [lev_nil']
  | cons b t ih =>
    rw [lev_cons, lev_cons]
    split <;> split <;> omega

theorem lev_cons_mono (a : Char) {s s' : List Char} (h : ∀ t, lev s t ≤ lev s' t + 1) (t : List Char) :
    lev (a :: s) t ≤ lev (a :: s') t + 1 := by
  induction t with
  | nil => have := h []; simp [lev_nil'] at this ⊢; omega
  | cons b t ih =>
    rw [lev_cons, lev_cons]
    have := h (b :: t)
    have := h t
    omega

theorem lev_append_mono (p : List Char) {s s' : List Char} (h : ∀ t, lev s t ≤ lev s' t + 1) (t : List Char) :
    lev (p ++ s) t ≤ lev (p ++ s') t + 1 := by
  induction p generalizing t with
  | nil => exact h t
  | cons a p ih => exact lev_cons_mono a ih t

theorem lev_edit {s s' : List Char} (h : Edit s s') (t : List Char) : lev s t ≤ lev s' t + 1 := by
  cases h with
  | insert a b c => exact lev_append_mono a (lev_undel c b) t
  | delete a b c => exact lev_append_mono a (lev_del c b) t
  | replace a b c d => exact lev_append_mono a (lev_sub c d b) t

theorem lev_self (s : List Char) : lev s s = 0 := by
  induction s with
  | nil => simp [lev_nil]
  | cons a s ih => rw [lev_cons, ih]; simp

theorem lev_le {n : Nat} {s t : List Char} (h : Edits n s t) : lev s t ≤ n := by
  induction h with
  | none s => rw [lev_self]
  | step h _ ih => have := lev_edit h; have := this ‹_›; omega

theorem edit_cons (a : Char) {s t : List Char} (h : Edit s t) : Edit (a :: s) (a :: t) := by
  cases h with
  | insert p b c => exact .insert (a :: p) b c
  | delete p b c => exact .delete (a :: p) b c
  | replace p b c d => exact .replace (a :: p) b c d

theorem edits_cons (a : Char) {n : Nat} {s t : List Char} (h : Edits n s t) : Edits n (a :: s) (a :: t) := by
  induction h with
  | none s => exact .none _
  | step h _ ih => exact .step (edit_cons a h) ih

theorem edits_of_insert (t : List Char) : Edits t.length [] t := by
  induction t with
  | nil => exact .none _
  | cons c t ih => exact .step (.insert [] [] c) (edits_cons c ih)

theorem edits_of_delete (s : List Char) : Edits s.length s [] := by
  induction s with
  | nil => exact .none _
  | cons c t ih => exact .step (.delete [] t c) ih

theorem edits_lev (s t : List Char) : Edits (lev s t) s t := by
  match s, t with
  | [], t => rw [lev_nil]; exact edits_of_insert t
  | a :: s, [] => rw [lev_nil']; exact edits_of_delete _
  | a :: s, b :: t =>
    rw [lev_cons]
    rcases min_choice (lev s (b :: t) + 1) (min (lev (a :: s) t + 1) (lev s t + if a ≠ b then 1 else 0)) with h | h
    · rw [h]; exact .step (.delete [] s a) (edits_lev s (b :: t))
    · rw [h]
      rcases min_choice (lev (a :: s) t + 1) (lev s t + if a ≠ b then 1 else 0) with h | h
      · rw [h]; exact .step (.insert [] (a :: s) b) (edits_cons b (edits_lev (a :: s) t))
      · rw [h]
        split
        · exact .step (.replace [] s a b) (edits_cons b (edits_lev s t))
        · rename_i hab
          simp only [ne_eq, Decidable.not_not] at hab
          subst hab
          exact edits_cons a (edits_lev s t)
termination_by s.length + t.length

/-- `lev` of the reversed prefixes: the matrix of the program. -/
def D (s t : List Char) (j : Nat) : Nat := lev s.reverse (t.take j).reverse

theorem take_succ_reverse (t : List Char) (j : Nat) (h : j < t.length) :
    (t.take (j + 1)).reverse = t[j] :: (t.take j).reverse := by
  rw [List.take_succ_eq_append_getElem h, List.reverse_append]; rfl

theorem columns_spec (c : Char) (p t : List Char) (dp0 : Nat → Nat)
    (h0 : ∀ j, j ≤ t.length → dp0 j = D p t j) :
    ∀ k j dp1, 1 ≤ j → t.length + 1 - j = k → (∀ i, i < j → i ≤ t.length → dp1 i = D (p ++ [c]) t i) →
      ∀ i, i ≤ t.length → columns c t dp0 j dp1 i = D (p ++ [c]) t i := by
  intro k
  induction k with
  | zero =>
    intro j dp1 hj hk h1 i hi
    rw [columns, dif_neg (by omega)]
    exact h1 i (by omega) hi
  | succ k ih =>
    intro j dp1 hj hk h1 i hi
    rw [columns, dif_pos (by omega)]
    refine ih (j + 1) _ (by omega) (by omega) ?_ i hi
    intro i' hi' hle
    unfold set
    by_cases he : i' = j
    · subst he
      rw [if_pos rfl]
      obtain ⟨m, rfl⟩ : ∃ m, i' = m + 1 := ⟨i' - 1, by omega⟩
      simp only [Nat.add_sub_cancel]
      rw [h0 (m + 1) hle, h0 m (by omega), h1 m (by omega) (by omega)]
      unfold D
      rw [take_succ_reverse t m (by omega), List.reverse_append]
      show _ = lev (c :: p.reverse) _
      rw [lev_cons]
      rfl
    · rw [if_neg he]; exact h1 i' (by omega) hle

theorem rows_spec (t : List Char) : ∀ (s p : List Char) (dp0 dp1 : Nat → Nat),
    (∀ j, j ≤ t.length → dp0 j = D p t j) →
    ∀ j, j ≤ t.length → rows t s (p.length + 1) dp0 dp1 j = D (p ++ s) t j := by
  intro s
  induction s with
  | nil => intro p dp0 dp1 h0 j hj; rw [rows, h0 j hj, List.append_nil]
  | cons c s ih =>
    intro p dp0 dp1 h0 j hj
    rw [rows]
    have := ih (p ++ [c]) (columns c t dp0 1 (set dp1 0 (p.length + 1))) dp0 ?_ j hj
    · rw [List.length_append, List.length_singleton] at this
      rw [this]; simp
    · refine columns_spec c p t dp0 h0 _ 1 _ (le_refl _) rfl ?_
      intro i hi _
      obtain rfl : i = 0 := by omega
      simp [set, D, lev_nil']

theorem edit_reverse {s t : List Char} (h : Edit s t) : Edit s.reverse t.reverse := by
  cases h with
  | insert a b c =>
    have := Edit.insert b.reverse a.reverse c
    simpa using this
  | delete a b c =>
    have := Edit.delete b.reverse a.reverse c
    simpa using this
  | replace a b c d =>
    have := Edit.replace b.reverse a.reverse c d
    simpa using this

theorem edits_reverse {n : Nat} {s t : List Char} (h : Edits n s t) : Edits n s.reverse t.reverse := by
  induction h with
  | none s => exact .none _
  | step h _ ih => exact .step (edit_reverse h) ih

theorem distance_eq (s t : List Char) : distance s t = lev s.reverse t.reverse := by
  unfold distance
  have := rows_spec t s [] (fun i => i) (fun _ => 0) ?_ t.length (le_refl _)
  · simpa [D] using this
  · intro j hj; simp [D, lev_nil]; omega

/-- **C25**. The number computed is the length of a shortest sequence of single-character insertions, deletions
and substitutions that turns the first string into the second. -/
theorem _root_.MZ.C25_levenshtein (s t : List Char) :
    Edits (distance s t) s t ∧ ∀ n, Edits n s t → distance s t ≤ n := by
  rw [distance_eq]
  constructor
  · have := edits_reverse (edits_lev s.reverse t.reverse)
    simpa using this
  · intro n h
    exact lev_le (edits_reverse h)

/-- **C25**. Hence the distance is symmetric, zero only between equal strings, and satisfies the triangle
inequality. -/
theorem _root_.MZ.C25_metric (s t u : List Char) :
    (distance s t = 0 ↔ s = t) ∧ distance s t = distance t s ∧ distance s u ≤ distance s t + distance t u := by
  have hsym : ∀ {n s t}, Edits n s t → Edits n t s := by
    have hsnoc : ∀ {n s u t}, Edits n s u → Edit u t → Edits (n + 1) s t := by
      intro n s u t h e
      induction h with
      | none s => exact .step e (.none _)
      | step h _ ih => exact .step h (ih e)
    intro n s t h
    induction h with
    | none s => exact .none _
    | step h _ ih =>
      refine hsnoc ih ?_
      cases h with
      | insert a b c => exact .delete a b c
      | delete a b c => exact .insert a b c
      | replace a b c d => exact .replace a b d c
  have htrans : ∀ {n m s t u}, Edits n s t → Edits m t u → Edits (n + m) s u := by
    intro n m s t u h h'
    induction h with
    | none s => simpa using h'
    | step h _ ih => rw [Nat.add_right_comm]; exact .step h (ih h')
  obtain ⟨h1, h2⟩ := C25_levenshtein s t
  obtain ⟨h3, h4⟩ := C25_levenshtein t s
  obtain ⟨h5, _⟩ := C25_levenshtein t u
  obtain ⟨_, h8⟩ := C25_levenshtein s u
  refine ⟨⟨?_, ?_⟩, le_antisymm (h2 _ (hsym h3)) (h4 _ (hsym h1)), h8 _ (htrans h1 h5)⟩
  · intro h; rw [h] at h1; cases h1; rfl
  · rintro rfl; exact Nat.le_zero.1 (h2 0 (.none _))

example : distance "kitten".toList "sitting".toList = 3 := by decide +kernel

end Lev
end MZ
