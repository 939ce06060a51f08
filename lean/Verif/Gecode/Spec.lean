import Verif.Gecode.Model
import Mathlib.Data.List.Lex
import Mathlib.Data.List.Count

/-!
# What the constraints mean

The meaning of Gecode's functions (Gecode itself is trusted to implement it), and the meaning of FlatZinc's constraints on the values of their
arguments.
-/

namespace MZ
namespace Gecode

/-- Values of the variables of the FlatZinc model. -/
structure Asg where
  i : Nat → Int
  b : Nat → Bool

/-- 1 or 0. -/
def num (b : Bool) : Int := if b then 1 else 0

/-! ## Constraints on values -/

/-- `Σ kᵢ · vᵢ` -/
def dot (ks vs : List Int) : Int := (List.zipWith (· * ·) ks vs).sum

/-- Comparisons of FlatZinc. -/
def Rel.holds : Rel → Int → Int → Prop
  | .eq, x, y => x = y
  | .ne, x, y => x ≠ y
  | .le, x, y => x ≤ y
  | .lt, x, y => x < y
  | .ge, x, y => y ≤ x
  | .gt, x, y => y < x

/-- The constraint, its reification or its half-reification: `b ↔ P` or `b → P`. -/
def Mode.holds (m : Mode) (b : Bool) (P : Prop) : Prop :=
  match m with
  | .plain => P
  | .reif => (b = true ↔ P)
  | .imp => (b = true → P)

/-- Boolean operators on two values. -/
def BOT.apply : BOT → Bool → Bool → Bool
  | .AND, x, y => x && y
  | .OR, x, y => x || y
  | .XOR, x, y => x ^^ y
  | .IMP, x, y => !x || y

/-- Boolean operators on arrays: all, one, an odd number of them. -/
def BOT.applyN : BOT → List Bool → Bool
  | .AND, l => l.all id
  | .OR, l => l.any id
  | .XOR, l => decide (l.count true % 2 = 1)
  | .IMP, _ => false

/-- Some element of `ps` is true or some element of `ns` is false. -/
def Clause (ps ns : List Bool) : Prop := true ∈ ps ∨ false ∈ ns

/-- `v` is the element at `i`, counted from `off`. -/
def ElementAt {α : Type} (off : Int) (l : List α) (i : Int) (v : α) : Prop := ∃ j : Nat, i = j + off ∧ l[j]? = some v

/-- How many elements are in `s`. -/
def countIn (l : List Int) (s : Finset Int) : Int := ((l.filter (fun v => decide (v ∈ s))).length : Int)

/-- What the items in bin `j` weigh together. -/
def binLoad (bins : List Int) (sizes : List Int) (j : Int) : Int :=
  ((List.zip bins sizes).map (fun q => if q.1 = j then q.2 else 0)).sum

/-- Every item is in a bin, numbered from `off`, and the loads are the sums of the sizes of the items. -/
def BinPacking (off : Int) (loads bins : List Int) (sizes : List Int) : Prop :=
  (∀ v ∈ bins, off ≤ v ∧ v < off + loads.length) ∧ ∀ (j : Nat) (l : Int), loads[j]? = some l → l = binLoad bins sizes (off + j)

/-- The value at position `j` of `cover` is taken as often as the number at this position says. -/
def Counts (xs cover counts : List Int) : Prop :=
  ∀ (j : Nat) (v c : Int), cover[j]? = some v → counts[j]? = some c → (xs.count v : Int) = c

/-- The value at position `j` of `cover` is taken between `lo` and `up` times. -/
def CountsBetween (xs cover : List Int) (bounds : List (Int × Int)) : Prop :=
  ∀ (j : Nat) (v : Int) (q : Int × Int), cover[j]? = some v → bounds[j]? = some q → q.1 ≤ (xs.count v : Int) ∧ (xs.count v : Int) ≤ q.2

/-- Tasks `(start, duration, height)`: what runs at the time `t` uses. -/
def usage (s d h : List Int) (t : Int) : Int :=
  ((List.zip s (List.zip d h)).map (fun q => if q.1 ≤ t ∧ t < q.1 + q.2.1 then q.2.2 else 0)).sum

/-- Tasks at the times `s` with the durations `d` use `h` of a resource; at no time is more than `b` used. -/
def Cumulative (s d h : List Int) (b : Int) : Prop := ∀ t : Int, usage s d h t ≤ b

/-- Tasks at the times `s` with the durations `d` do not overlap. -/
def Disjunctive (s d : List Int) : Prop :=
  (List.zip s d).Pairwise (fun p q => p.1 + p.2 ≤ q.1 ∨ q.1 + q.2 ≤ p.1)

/-- A run of an automaton with the transitions `t` from state `q` over the word `w` to a state in `f`. -/
def Run (t : List (Int × Int × Int)) (f : List Int) : Int → List Int → Prop
  | q, [] => q ∈ f
  | q, a :: w => ∃ q', (q, a, q') ∈ t ∧ Run t f q' w

/-- The table `d` with `s` columns takes the automaton from state `q` over the word `w` to a state in `F`: states `1..n`, symbols `1..s`;
state 0 refuses. -/
def Accepts (n s : Nat) (d : List Int) (F : Finset Int) : Int → List Int → Prop
  | q, [] => q ∈ F
  | q, a :: w => 1 ≤ q ∧ q ≤ n ∧ 1 ≤ a ∧ a ≤ s ∧
      0 < d.getD ((q - 1) * s + (a - 1)).toNat 0 ∧ Accepts n s d F (d.getD ((q - 1) * s + (a - 1)).toNat 0) w

/-- The arrays are inverse functions: the elements of `xs` are positions of `ys` counted from `xoff`, and the other way round. -/
def Inverse (xs : List Int) (xoff : Int) (ys : List Int) (yoff : Int) : Prop :=
  (∀ v ∈ xs, xoff ≤ v ∧ v < xoff + ys.length) ∧ (∀ v ∈ ys, yoff ≤ v ∧ v < yoff + xs.length) ∧
  ∀ (i j : Nat) (v w : Int), xs[i]? = some v → ys[j]? = some w → (v = xoff + j ↔ w = yoff + i)

/-- Boxes `(x, w, y, h)` do not overlap. -/
def NoOverlap (x w y h : List Int) : Prop :=
  (List.zip x (List.zip w (List.zip y h))).Pairwise (fun p q =>
    p.1 + p.2.1 ≤ q.1 ∨ q.1 + q.2.1 ≤ p.1 ∨ p.2.2.1 + p.2.2.2 ≤ q.2.2.1 ∨ q.2.2.1 + q.2.2.2 ≤ p.2.2.1)

/-- The first `t` comes after some `s`. -/
def Precede (l : List Int) (s t : Int) : Prop := ∀ j : Nat, l[j]? = some t → ∃ i : Nat, i < j ∧ l[i]? = some s

/-- The first position of a smallest (`le`) element, counted from 0. -/
def FirstBest (le : Int → Int → Prop) (l : List Int) (i : Int) : Prop :=
  ∃ (j : Nat) (v : Int), i = j ∧ l[j]? = some v ∧ (∀ u ∈ l, le v u) ∧ ∀ k < j, l[k]? ≠ some v

/-! ## Gecode's functions -/

/-- Relations. -/
def IRT.holds : IRT → Int → Int → Prop
  | .EQ, x, y => x = y
  | .NQ, x, y => x ≠ y
  | .LQ, x, y => x ≤ y
  | .LE, x, y => x < y
  | .GQ, x, y => x ≥ y
  | .GR, x, y => x > y

/-- The value of an expression; `e` are the values of the variables that the poster created. -/
def Term.val (a : Asg) (e : Nat → Int) : Term → Int
  | .var x => a.i x
  | .const c => c
  | .aux k => e k
  | .add s t => s.val a e + t.val a e
  | .sub s t => s.val a e - t.val a e
  | .mul s t => s.val a e * t.val a e
  | .ofBool b => num (a.b b)
  | .within s t u => if s.val a e ≤ t ∧ t < u.val a e then 1 else 0

/-- The value of a Boolean variable. -/
def BTerm.val (a : Asg) (e : Nat → Int) : BTerm → Bool
  | .var x => a.b x
  | .const b => b
  | .aux k => e k == 1

/-- Reified constraints. -/
def Reif.holds (re : Reif) (a : Asg) (e : Nat → Int) (P : Prop) : Prop :=
  match re with
  | none => P
  | some (b, .eqv) => (b.val a e = true ↔ P)
  | some (b, .imp) => (b.val a e = true → P)

/-- What a call of one of Gecode's functions enforces. -/
def Post.holds (a : Asg) (e : Nat → Int) : Post → Prop
  | .fail => False
  | .rel x r y re => re.holds a e (r.holds (x.val a e) (y.val a e))
  | .relB x r y re => re.holds a e (r.holds (num (x.val a e)) (num (y.val a e)))
  | .linear ks xs r c re => re.holds a e (r.holds (dot ks (xs.map (Term.val a e))) (c.val a e))
  | .linearB ks xs r c re => re.holds a e (r.holds (dot ks (xs.map (fun x => num (BTerm.val a e x)))) (c.val a e))
  | .mult x y z => x.val a e * y.val a e = z.val a e
  | .div x y z => y.val a e ≠ 0 ∧ (x.val a e).tdiv (y.val a e) = z.val a e
  | .mod x y z => y.val a e ≠ 0 ∧ (x.val a e).tmod (y.val a e) = z.val a e
  | .min x y z => Min.min (x.val a e) (y.val a e) = z.val a e
  | .max x y z => Max.max (x.val a e) (y.val a e) = z.val a e
  | .abs x y => |x.val a e| = y.val a e
  | .op x o y z => o.apply (x.val a e) (y.val a e) = z.val a e
  | .opN o xs z => o.applyN (xs.map (BTerm.val a e)) = z.val a e
  | .clause ps ns z => (Clause (ps.map (BTerm.val a e)) (ns.map (BTerm.val a e)) ↔ z.val a e = true)
  | .element xs i y => ElementAt 0 (xs.map (Term.val a e)) (i.val a e) (y.val a e)
  | .elementB xs i y => ElementAt 0 (xs.map (BTerm.val a e)) (i.val a e) (y.val a e)
  | .channel b x => num (b.val a e) = x.val a e
  | .dom x s re => re.holds a e (x.val a e ∈ s)
  | .eqB x neg y => x.val a e = (neg ^^ y.val a e)
  | .impB x neg y => x.val a e = true → (neg ^^ y.val a e) = true
  | .lex xs ys .LE => List.Lex (· < ·) (xs.map (Term.val a e)) (ys.map (Term.val a e))
  | .lex xs ys .LQ => List.Lex (· < ·) (xs.map (Term.val a e)) (ys.map (Term.val a e)) ∨ xs.map (Term.val a e) = ys.map (Term.val a e)
  | .lex _ _ _ => False
  | .relN xs r => (xs.map (Term.val a e)).Pairwise r.holds
  | .distinct cs xs => (List.zipWith (· + ·) cs (xs.map (Term.val a e))).Nodup
  | .count xs y r c => r.holds ((xs.map (Term.val a e)).count (y.val a e) : Int) (c.val a e)
  | .reifEq b x y .eqv => (b.val a e = true ↔ x.val a e = y.val a e)
  | .reifEq b x y .imp => (b.val a e = true → x.val a e = y.val a e)
  | .countSet xs s r c => r.holds (countIn (xs.map (Term.val a e)) s) (c.val a e)
  | .binpacking ls bins sizes => BinPacking 0 (ls.map (Term.val a e)) (bins.map (Term.val a e)) sizes
  | .cards xs counts cover =>
      (∀ v ∈ xs.map (Term.val a e), v ∈ cover) ∧ Counts (xs.map (Term.val a e)) cover (counts.map (Term.val a e))
  | .cardSets xs sets cover => (∀ v ∈ xs.map (Term.val a e), v ∈ cover) ∧ CountsBetween (xs.map (Term.val a e)) cover sets
  | .minN xs y => y.val a e ∈ xs.map (Term.val a e) ∧ ∀ v ∈ xs.map (Term.val a e), y.val a e ≤ v
  | .maxN xs y => y.val a e ∈ xs.map (Term.val a e) ∧ ∀ v ∈ xs.map (Term.val a e), v ≤ y.val a e
  | .argmin xs i => FirstBest (· ≤ ·) (xs.map (Term.val a e)) (i.val a e)
  | .argmax xs i => FirstBest (· ≥ ·) (xs.map (Term.val a e)) (i.val a e)
  | .dfa xs q0 t f => Run t f q0 (xs.map (Term.val a e))
  | .sorted xs ys => (ys.map (Term.val a e)).Pairwise (· ≤ ·) ∧ (xs.map (Term.val a e)).Perm (ys.map (Term.val a e))
  | .channelN xs xo ys yo => Inverse (xs.map (Term.val a e)) xo (ys.map (Term.val a e)) yo
  | .tuples xs ts => xs.map (Term.val a e) ∈ ts
  | .geMax b xs => ∀ v ∈ xs.map (Term.val a e), v ≤ b.val a e
  | .unary ss ds => Disjunctive (ss.map (Term.val a e)) (ds.map (Term.val a e))
  | .cumulative b ss ds hs => Cumulative (ss.map (Term.val a e)) (ds.map (Term.val a e)) (hs.map (Term.val a e)) (b.val a e)
  | .cumulatives1 l ss ds hs =>
      ∀ t : Int, (∃ q ∈ List.zip (ss.map (Term.val a e)) (ds.map (Term.val a e)), q.1 ≤ t ∧ t < q.1 + q.2) →
        usage (ss.map (Term.val a e)) (ds.map (Term.val a e)) (hs.map (Term.val a e)) t ≤ l
  | .sequence xs s q l u => ∀ i : Nat, i + q ≤ xs.length →
      l ≤ countIn (((xs.map (Term.val a e)).drop i).take q.toNat) s ∧ countIn (((xs.map (Term.val a e)).drop i).take q.toNat) s ≤ u
  | .nooverlap xs ws ys hs =>
      NoOverlap (xs.map (Term.val a e)) (ws.map (Term.val a e)) (ys.map (Term.val a e)) (hs.map (Term.val a e))
  | .precede xs s t => Precede (xs.map (Term.val a e)) s t
  | .nvalues xs n => ((xs.map (Term.val a e)).toFinset.card : Int) = n.val a e
  | .member xs y re => re.holds a e (y.val a e ∈ xs.map (Term.val a e))

/-- The values of the variables can be extended to the variables that the poster created so that all calls are satisfied. -/
def Posted.holds (p : Posted) (a : Asg) : Prop :=
  ∃ e : Nat → Int, (∀ (k : Nat) (q : Int × Int), p.aux[k]? = some q → q.1 ≤ e k ∧ e k ≤ q.2) ∧ ∀ c ∈ p.posts, c.holds a e

/-! ## Arguments -/

/-- The value of an integer argument. -/
def IArg.val (a : Asg) : IArg → Int
  | .var x => a.i x
  | .lit c => c

/-- The value of a Boolean argument. -/
def BArg.val (a : Asg) : BArg → Bool
  | .var x => a.b x
  | .lit b => b

/-- The values of an array. -/
def ints (a : Asg) (l : List IArg) : List Int := l.map (IArg.val a)

/-- The values of an array of Booleans. -/
def bools (a : Asg) (l : List BArg) : List Bool := l.map (BArg.val a)

/-- The values of Booleans as numbers. -/
def nums (a : Asg) (l : List BArg) : List Int := l.map (fun b => num (b.val a))

/-- Numbers of 32 bits. -/
def Small (c : Int) : Prop := -2147483648 ≤ c ∧ c ≤ 2147483647

/-- Numbers that Gecode can represent. -/
def Safe (c : Int) : Prop := -2147483646 ≤ c ∧ c ≤ 2147483646

/-- A literal is a number that Gecode can represent. -/
def IArg.Safe : IArg → Prop
  | .var _ => True
  | .lit c => Gecode.Safe c

/-- All values are in the domains. -/
def Asg.In (a : Asg) (D : Doms) : Prop := ∀ x, a.i x ∈ D.vals x

/-- The poster posts calls that are satisfied by exactly the assignments that satisfy `P`. -/
def Posts (p : Posted) (P : Asg → Prop) : Prop := ∀ a, p.holds a ↔ P a

/-- The same for a poster that can fail, and for assignments with values in the domains. -/
def PostsIn (D : Doms) (r : Res Posted) (P : Asg → Prop) : Prop := ∃ p, r = .ok p ∧ ∀ a : Asg, a.In D → (p.holds a ↔ P a)

end Gecode
end MZ
