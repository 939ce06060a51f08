import Verif.LexOrd.Spec

/-!
# The ordering and precedence constraints of the library

`share/minizinc/std`: `lex_less`, `lex_lesseq`, `lex_chain_less`, `lex_chain_lesseq`, `lex2`, `strict_lex2`,
`value_precede`, `value_precede_chain`, `seq_precede_chain`, `increasing`, `strictly_increasing`,
`var_perm_sym`.

Elements of the lexicographic constraints are of any linearly ordered type: the library has one copy of each
for Booleans, integers, floats and sets, all of which call the same decomposition.
-/

namespace MZ.LexOrd
open MZ.Globals
open MZ.LexOrd.Spec (Mat)

section Lex
variable {α : Type} [LinearOrder α]

/-- The Booleans `b[0..size+1]` of both decompositions (`stdlib/stdlib_internal.mzn` 2986–2992 and
3011–3018); `last` is the value of `b[size+1]`. -/
def lexBools (x y : Arr α) (size : Int) (last : Prop) (b : Int → Prop) : Prop :=
  (b (size + 1) ↔ last) ∧
  ∀ i, 0 ≤ i → i ≤ size →
    (b i ↔ (x (x.lo + i) ≤ y (y.lo + i) ∧ (x (x.lo + i) < y (y.lo + i) ∨ b (i + 1))))

/-- `lex_less_std_decomposition` (`stdlib/stdlib_internal.mzn` 2972–2994): `c` is the value of the call. -/
def lexLessStd (x y : Arr α) (c : Prop) : Prop :=
  if y.len = 0 then (c ↔ False)
  else if x.len = 0 then (c ↔ True)
  else ∃ b : Int → Prop,
    lexBools x y (min (x.hi - x.lo) (y.hi - y.lo)) (x.hi - x.lo < y.hi - y.lo) b ∧ (c ↔ b 0)

/-- `lex_lesseq_std_decomposition` (`stdlib/stdlib_internal.mzn` 2996–3020). -/
def lexLessEqStd (x y : Arr α) (c : Prop) : Prop :=
  if x.len = 0 then (c ↔ True)
  else if y.len = 0 then (c ↔ x.len = 0)
  else ∃ b : Int → Prop,
    lexBools x y (min (x.hi - x.lo) (y.hi - y.lo)) (x.hi - x.lo ≤ y.hi - y.lo) b ∧ (c ↔ b 0)

/-- `lex_less` (`lex_less.mzn` 37–49; `fzn_lex_less_int.mzn` 6–9; `fzn_lex_less_int_reif.mzn` 6–10).
`array1d` of a one-dimensional array reindexes it from 1. -/
def lexLess (xs ys : Arr α) (c : Prop) : Prop :=
  if xs.len = 1 ∧ ys.len = 1 then (c ↔ xs xs.lo < ys ys.lo)
  else if xs.len = 0 then (c ↔ 0 < ys.len)
  else if ys.len = 0 then (c ↔ False)
  else lexLessStd (xs.compr id) (ys.compr id) c

/-- `lex_lesseq` (`lex_lesseq.mzn` 61–73; `fzn_lex_lesseq_int.mzn` 6–9). -/
def lexLessEq (xs ys : Arr α) (c : Prop) : Prop :=
  if xs.len = 1 ∧ ys.len = 1 then (c ↔ xs xs.lo ≤ ys ys.lo)
  else if xs.len = 0 then (c ↔ True)
  else if ys.len = 0 then (c ↔ False)
  else lexLessEqStd (xs.compr id) (ys.compr id) c

/-- `col(xs, j)` (`stdlib/stdlib_array.mzn`, `function array [$$E] of var $T: col`): the index set is the
first one of the matrix. -/
def col (m : Mat α) (j : Int) : Arr α := ⟨m.lo1, m.hi1, fun i => m.val i j⟩

/-- `lex_chain_less` (`lex_chain_less.mzn` 20–21, `fzn_lex_chain_less_int.mzn` 3–6). -/
def lexChainLess (m : Mat α) : Prop :=
  if 1 < m.hi2 - m.lo2 + 1 then
    ∀ j, m.lo2 ≤ j → j ≤ m.hi2 → (m.lo2 ≤ j + 1 ∧ j + 1 ≤ m.hi2) → lexLess (col m j) (col m (j + 1)) True
  else True

/-- `lex_chain_lesseq` (`lex_chain_lesseq.mzn` 20–21, `fzn_lex_chain_lesseq_int.mzn` 3–6). -/
def lexChainLessEq (m : Mat α) : Prop :=
  if 1 < m.hi2 - m.lo2 + 1 then
    ∀ j, m.lo2 ≤ j → j ≤ m.hi2 → (m.lo2 ≤ j + 1 ∧ j + 1 ≤ m.hi2) → lexLessEq (col m j) (col m (j + 1)) True
  else True

/-- `array2d(index_set_2of2(xs), index_set_1of2(xs), [xs[i, j] | j in …, i in …])`
(`fzn_lex2.mzn` 7–12): the comprehension fills the new rows one after the other. -/
def transpose (m : Mat α) : Mat α := ⟨m.lo2, m.hi2, m.lo1, m.hi1, fun j i => m.val i j⟩

/-- `fzn_lex2` (`fzn_lex2.mzn` 3–13). -/
def lex2 (m : Mat α) : Prop := lexChainLessEq m ∧ lexChainLessEq (transpose m)

/-- `fzn_strict_lex2` (`fzn_strict_lex2.mzn` 3–13). -/
def strictLex2 (m : Mat α) : Prop := lexChainLess m ∧ lexChainLess (transpose m)

/-- `fzn_increasing_int`/`_float`/`_bool` (`fzn_increasing_int.mzn` 5–8). -/
def increasing (xs : Arr α) : Prop :=
  if 1 < xs.len then ∀ i ∈ xs.idx.erase xs.lo, xs (i - 1) ≤ xs i else True

/-- `fzn_increasing_set` (`fzn_increasing_set.mzn` 5–6): without a guard on the length, so that
`min(index_set(xs))` is undefined for an empty array, and with it the constraint
(`lib/builtins.cpp` 866–871). -/
def increasingSet (xs : Arr α) : Prop :=
  xs.idx.Nonempty ∧ ∀ i ∈ xs.idx.erase xs.lo, xs (i - 1) ≤ xs i

/-- `fzn_strictly_increasing_int`/`_set` (`fzn_strictly_increasing_int.mzn` 5–6): no guard either. -/
def strictlyIncreasing (xs : Arr α) : Prop :=
  xs.idx.Nonempty ∧ ∀ i ∈ xs.idx.erase xs.lo, xs (i - 1) < xs i

/-- `fzn_var_perm_sym_pairwise` (`fzn_var_perm_sym.mzn` 16–24): `invp1` collects, for `i` in `1..n`, the `j`
with `p1[j] = i`; for a permutation that is its inverse. -/
def varPermSymPairwise (x : Arr α) (p1 p2 : Int → Int) : Prop :=
  ∃ inv : Int → Int,
    (∀ i, 1 ≤ i → i ≤ x.len → 1 ≤ inv i ∧ inv i ≤ x.len ∧ p1 (inv i) = i) ∧
    lexLessEq x ⟨1, x.len, fun i => x (p2 (inv i))⟩ True

/-- `fzn_var_perm_sym` (`fzn_var_perm_sym.mzn` 3–14): row `r` of the matrix of permutations is `ps r`. -/
def varPermSym (xs : Arr α) (ps : Arr (Int → Int)) : Prop :=
  ∀ i ∈ ps.idx, ∀ j ∈ ps.idx, i ≠ j → varPermSymPairwise (xs.compr id) (ps i) (ps j)

/-- Row `k` of the matrix `p` of `fzn_var_sqr_sym` (`fzn_var_sqr_sym.mzn` 10–36), at the entry of `(i, j)`. -/
def sqrEntry (n k i j : Int) : Int :=
  if k = 1 then i * n + j - n
  else if k = 2 then (n - j) * n + i
  else if k = 3 then (n - i) * n + (n - j) + 1
  else if k = 4 then (j * n - n) + (n - i + 1)
  else if k = 5 then (n - i) * n + j
  else if k = 6 then (i * n - n) + (n - j + 1)
  else if k = 7 then (n - j) * n + (n - i + 1)
  else (j * n - n) + i

/-- `fzn_var_sqr_sym` (`fzn_var_sqr_sym.mzn` 3–38) for an `n × n` matrix: `y` lists the entries row by row and
position `q` of a list filled for `i, j in 1..n` belongs to `i = (q-1) div n + 1`, `j = (q-1) mod n + 1`. -/
def varSqrSym (n : Int) (f : Int × Int → α) : Prop :=
  varPermSym ⟨1, n * n, fun q => f ((q - 1) / n + 1, (q - 1) % n + 1)⟩
    ⟨1, 8, fun k q => sqrEntry n k ((q - 1) / n + 1) ((q - 1) % n + 1)⟩

end Lex

/-- The Booleans of `fzn_value_precede_int` and `fzn_value_precede_set` (`fzn_value_precede_int.mzn` 7–18):
`xis` is the test on the element, `ok` what is required before the first hit. -/
def precedeBools {α : Type} (xs : Arr α) (xis ok : α → Prop) (b : Int → Prop) : Prop :=
  (∀ i, xs.lo ≤ i → i ≤ xs.hi →
    (xis (xs i) → b (i + 1)) ∧ (¬ xis (xs i) → (b i ↔ b (i + 1))) ∧ (¬ b i → ok (xs i))) ∧
  ¬ b xs.lo

/-- `fzn_value_precede_int` (`fzn_value_precede_int.mzn` 1–19). -/
def valuePrecede (before after : Int) (xs : Arr Int) : Prop :=
  if xs.len = 0 then True
  else ∃ b, precedeBools xs (fun x => x = before) (fun x => x ≠ after) b

/-- `fzn_value_precede_set` (`fzn_value_precede_set.mzn` 1–19). -/
def valuePrecedeSet (before after : Int) (xs : Arr (Finset Int)) : Prop :=
  if xs.len = 0 then True
  else ∃ b, precedeBools xs (fun s => before ∈ s ∧ ¬ after ∈ s) (fun s => before ∈ s ∨ ¬ after ∈ s) b

/-- `fzn_value_precede_int_opt` (`fzn_value_precede_int_opt.mzn` 3–6): `hadZero` is `had_zero(xs)`. -/
def valuePrecedeOpt (before after : Int) (xs : Arr (Option Int)) (hadZero : Bool) : Prop :=
  valuePrecede before after
    (xs.compr (fun y => y.getD (if hadZero then max before after + 1 else 0)))

/-- `fzn_seq_precede_chain_int` (`fzn_seq_precede_chain_int.mzn` 1–13): `l`, `u` are `lb_array(xs)` and
`ub_array(xs)`. -/
def seqPrecede (xs : Arr Int) (l u : Int) : Prop :=
  if xs.len = 0 then True
  else ∃ H : Int → Int, (∀ i ∈ xs.idx, l ≤ H i ∧ H i ≤ u) ∧
    H xs.lo ≤ 1 ∧ H xs.lo = max (xs xs.lo) 0 ∧
    ∀ i ∈ xs.idx.erase xs.lo, H i ≤ H (i - 1) + 1 ∧ H i = max (xs i) (H (i - 1))

/-- `m = max(s)` for a set: undefined, hence false, for the empty set. -/
def IsMaxOf (s : Finset Int) (m : Int) : Prop := m ∈ s ∧ ∀ v ∈ s, v ≤ m

/-- `fzn_seq_precede_chain_set` (`fzn_seq_precede_chain_set.mzn` 1–14): `l`, `u` are the least and the
greatest possible element. -/
def seqPrecedeSet (xs : Arr (Finset Int)) (l u : Int) : Prop :=
  if xs.len = 0 then True
  else ∃ H : Int → Int, (∀ i ∈ xs.idx, l ≤ H i ∧ H i ≤ u) ∧
    H xs.lo ≤ 1 ∧ IsMaxOf (xs xs.lo ∪ {0}) (H xs.lo) ∧
    ∀ i ∈ xs.idx.erase xs.lo, H i ≤ H (i - 1) + 1 ∧ ∃ m, IsMaxOf (xs i) m ∧ H i = max m (H (i - 1))

/-- `sum([i - offset | i in index_set(order) where order[i] = v])` (`fzn_value_precede_chain_int.mzn`
12, 16). -/
def chainPos (order : Arr Int) (v : Int) : Int :=
  ∑ i ∈ order.idx.filter (fun i => order i = v), (i - (order.lo - 1))

/-- `fzn_value_precede_chain_int` (`fzn_value_precede_chain_int.mzn` 3–22): `l`, `u` bound `xs`, `lY`, `uY`
bound `Y`.  `none` is the error raised by `lb_array` or `ub_array` of an empty array
(`lib/builtins.cpp` 403–406). -/
def valuePrecedeChain (order xs : Arr Int) (l u lY uY : Int) : Option Prop :=
  open Classical in
  if order.len = 0 then some True
  else if xs.len = 0 then none
  else if order.lo = 1 ∧ (∀ i ∈ order.idx, order i = i) ∧ maxOf order.idx order = u then
    some (seqPrecede xs l u)
  else
    let Y : Arr Int := ⟨xs.lo, xs.hi, fun i => chainPos order (xs i)⟩
    some ((∀ i ∈ Y.idx, 0 ≤ Y i ∧ Y i ≤ order.len) ∧ seqPrecede Y lY uY)

/-- `fzn_value_precede_chain_int_opt` (`fzn_value_precede_chain_int_opt.mzn` 3–7) for a non-empty `order`. -/
def valuePrecedeChainOpt (order : Arr Int) (xs : Arr (Option Int)) (hadZero : Bool) (l u lY uY : Int) :
    Option Prop :=
  valuePrecedeChain order
    ⟨xs.lo, xs.hi, fun i => (xs i).getD (if hadZero then maxOf order.idx order + 1 else 0)⟩ l u lY uY

/-- `fzn_value_precede_chain_set` (`fzn_value_precede_chain_set.mzn` 3–4): without a guard, the bounds of the
empty index set are undefined. -/
def valuePrecedeChainSet (order : Arr Int) (xs : Arr (Finset Int)) : Prop :=
  order.idx.Nonempty ∧
  ∀ i, order.lo + 1 ≤ i → i ≤ order.hi → valuePrecedeSet (order (i - 1)) (order i) xs

/-- The auxiliary `y` of the optional versions (`fzn_increasing_int_opt.mzn` 5–12): the last value that
occurred, or `start`. -/
def lastPresent (xx : Arr (Option Int)) (start : Int) (y : Int → Int) : Prop :=
  ∀ i, 1 ≤ i → i ≤ xx.len →
    y i = if (xx i).isSome then (xx i).getD 0 else if i = 1 then start else y (i - 1)

/-- `fzn_increasing_int_opt` (`fzn_increasing_int_opt.mzn` 5–13): `lb` is `lb_array(xs)`. -/
def increasingOpt (xs : Arr (Option Int)) (lb : Int) : Prop :=
  ∃ y, lastPresent (xs.compr id) lb y ∧
    ∀ i, 2 ≤ i → i ≤ xs.len → ((xs.compr id) i).isSome → ((xs.compr id) i).getD 0 ≥ y (i - 1)

/-- `fzn_increasing_int_opt_reif` (`fzn_increasing_int_opt_reif.mzn` 5–13). -/
def increasingOptReif (xs : Arr (Option Int)) (lb : Int) (c : Prop) : Prop :=
  ∃ y, lastPresent (xs.compr id) lb y ∧
    (c ↔ ∀ i, 2 ≤ i → i ≤ xs.len → ((xs.compr id) i).isSome → ((xs.compr id) i).getD 0 ≥ y (i - 1))

/-- `fzn_strictly_increasing_int_opt` (`fzn_strictly_increasing_int_opt.mzn` 5–14). -/
def strictlyIncreasingOpt (xs : Arr (Option Int)) (lb : Int) : Prop :=
  ∃ y, lastPresent (xs.compr id) (lb - 1) y ∧
    ∀ i, 2 ≤ i → i ≤ xs.len → ((xs.compr id) i).isSome → ((xs.compr id) i).getD 0 > y (i - 1)

/-- `strictly_increasing` of Booleans (`strictly_increasing.mzn`, first overload): comparison of an array of
length two with `[false, true]`. -/
def strictlyIncreasingBool (xs : Arr Bool) : Prop :=
  if 3 ≤ xs.len then False
  else if xs.len = 2 then xs xs.lo = false ∧ xs (xs.lo + 1) = true
  else True

end MZ.LexOrd
