import Verif.Syntax.ParseProps

/-!
# Operator expressions: printing and parsing again (C24)
-/

namespace MZ
namespace Syn

/-- Integers, with `^` on natural exponents; other operators and all calls are interpreted trivially. -/
def intAlg : Alg where
  D := Int
  lit := id
  ref s := if s = "x".toList then 3 else if s = "y".toList then 5 else 7
  call _ l := l.foldl (· + ·) 0
  bin
    | .plus, a, b => a + b
    | .minus, a, b => a - b
    | .mult, a, b => a * b
    | .pow, a, b => if 0 ≤ b then a ^ b.toNat else if a = 1 then 1 else 0
    | _, _, _ => 0
  un
    | .minus, a => -a
    | .plus, a => a
    | .not, a => a
  neg_lit _ := rfl
  pos_lit _ := rfl
  assoc _ _ _ := rfl

def x : E := .ref "x".toList
def y : E := .ref "y".toList
def z : E := .ref "z".toList
def f (e : E) : E := .call "f".toList (.cons e .nil)

end Syn

open Syn

/-- C24: an expression that is printed and parsed again is accepted and has the same value, whatever its
names, calls and operators mean (as long as a sign before a literal computes the literal and
concatenation is associative).

Proved for every expression that type checks and is `Clean`.  Missing: expressions outside `Clean`, for
which the claim is false (`C24_…_fails`). -/
theorem C24_roundtrip_partial {Γ : List Char → Srt} {e : E} {s : Srt} (hs : Sorted Γ e s) (hc : Clean e) :
    ∃ e', parse (lex (print e)) = .ok e' ∧ ∀ A : Alg, eval A e' = eval A e :=
  ⟨_, parse_print hs hc, fun A => by rw [eval_norm]; rfl⟩

/-- C24: a canonical expression comes back with the same structure. -/
theorem C24_structure {Γ : List Char → Srt} {e : E} {s : Srt} (hs : Sorted Γ e s) (hc : Clean e) (hn : Canonical e) :
    parse (lex (print e)) = .ok e := by
  rw [parse_print hs hc, norm_canonical e hn]

/-- Distinct canonical expressions have distinct texts. -/
theorem C24_unambiguous {Γ : List Char → Srt} {e e' : E} {s s' : Srt} (hs : Sorted Γ e s) (hs' : Sorted Γ e' s')
    (hc : Clean e) (hc' : Clean e') (hn : Canonical e) (hn' : Canonical e') (h : print e = print e') : e = e' := by
  have h1 := C24_structure hs hc hn
  rw [h, C24_structure hs' hc' hn'] at h1
  exact (Res.ok.inj h1).symm

/-- C24 fails for a negative literal as the base of a power: `(-2)^2` is printed as `-2^2`, which is `-(2^2)`. -/
theorem C24_power_base_fails :
    let e := E.bin .pow (.int (-2)) (.int 2)
    print e = "-2^2".toList ∧
    ∃ e', parse (lex (print e)) = .ok e' ∧ eval intAlg e' = (-4 : Int) ∧ eval intAlg e = (4 : Int) :=
  ⟨by decide +kernel, .un .minus (.bin .pow (.int 2) (.int 2)), rfl, rfl, rfl⟩

/-- C24 fails for a negated base: `(-x)^2` is printed as `-x^2`. -/
theorem C24_power_negated_fails :
    let e := E.bin .pow (.un .minus x) (.int 2)
    print e = "-x^2".toList ∧
    ∃ e', parse (lex (print e)) = .ok e' ∧ eval intAlg e' = (-9 : Int) ∧ eval intAlg e = (9 : Int) :=
  ⟨by decide +kernel, .un .minus (.bin .pow x (.int 2)), rfl, rfl, rfl⟩

/-- C24 fails for `x + (+y)`: the text is the concatenation of `x` and `y`. -/
theorem C24_plus_plus_fails :
    let e := E.bin .plus x (.un .plus y)
    print e = "x++y".toList ∧ parse (lex (print e)) = .ok (.bin .plusplus x y) :=
  ⟨by decide +kernel, rfl⟩

/-- C24 fails for the exponent −10: the text `2^-10` is not accepted. -/
theorem C24_exponent_fails :
    let e := E.bin .pow (.int 2) (.int (-10))
    print e = "2^-10".toList ∧ parse (lex (print e)) = .err :=
  ⟨by decide +kernel, rfl⟩

/-- C24 fails for a call to the power −1: the text `f(x)^-1` is parsed as `f(x)`. -/
theorem C24_call_power_fails :
    let e := E.bin .pow (f x) (.int (-1))
    print e = "f(x)^-1".toList ∧ parse (lex (print e)) = .ok (f x) :=
  ⟨by decide +kernel, rfl⟩

/-- C24 fails for a power to the power −1: `(x^y)^-1` is parsed as `x^(y^-1)`. -/
theorem C24_power_power_fails :
    let e := E.bin .pow (.bin .pow x y) (.int (-1))
    print e = "x^y^-1".toList ∧
      ∃ e', parse (lex (print e)) = .ok e' ∧ eval intAlg e' = (1 : Int) ∧ eval intAlg e = (0 : Int) :=
  ⟨by decide +kernel, .bin .pow x (.bin .pow y (.int (-1))), rfl, rfl, rfl⟩

/-- A concatenation to the right is regrouped, with the same value. -/
theorem C24_concat_regrouped :
    let e := E.bin .plusplus x (.bin .plusplus y z)
    print e = "x++y++z".toList ∧ parse (lex (print e)) = .ok (.bin .plusplus (.bin .plusplus x y) z) :=
  ⟨by decide +kernel, rfl⟩

namespace Syn

/-- All names are numbers, except that calls are Booleans. -/
def Γ0 : List Char → Srt := fun s => if s = "f".toList then .bool else .num

theorem name_x : Name "x".toList := ⟨⟨"x".toList, [], by decide +kernel⟩, by decide⟩
theorem name_y : Name "y".toList := ⟨⟨"y".toList, [], by decide +kernel⟩, by decide⟩
theorem name_f : Name "f".toList := ⟨⟨"f".toList, [], by decide +kernel⟩, by decide⟩

/-- `x-(y-(-3)) < -x^2 /\ not f(x*(y+1))` satisfies the hypotheses. -/
def sample : E :=
  .bin .and (.bin .le (.bin .minus x (.bin .minus y (.int (-3)))) (.un .minus (.bin .pow x (.int 2))))
    (.un .not (f (.bin .mult x (.bin .plus y (.int 1)))))

example : print sample = "x-(y--3) < -(x^2) /\\ not f(x*(y+1))".toList := by decide +kernel

example : Sorted Γ0 sample .bool ∧ Canonical sample ∧ Clean sample := by
  refine ⟨?_, ?_, ?_⟩
  · simp only [sample, Sorted, SortedL, f, x, y, Fits]
    refine ⟨⟨⟨.num, ?_⟩, ?_⟩, ?_⟩ <;> simp [Γ0]
  · simp [sample, Canonical, CanonicalL, f, x, y]
  · simp only [sample, Clean, CleanL, f, x, y]
    refine ⟨⟨⟨name_x, ⟨name_y, by decide, ?_⟩, ?_⟩, ⟨⟨name_x, by decide, ?_⟩, ?_⟩, ?_⟩, ⟨⟨name_f, ⟨⟨name_x, ⟨name_y, by decide, ?_⟩, ?_⟩, trivial⟩⟩, ?_⟩, ?_⟩ <;> decide +kernel

example : parse (lex (print sample)) = .ok sample := rfl

end Syn
end MZ
