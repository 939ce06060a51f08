import Verif.Utils.Model
/-!
# Specification: numbers as text, version order, words
-/
namespace MZ
namespace Utils

/-- The characters skipped in front of a number. -/
def Blank (c : Char) : Prop :=
  c = ' ' ∨ c = '\t' ∨ c = '\n' ∨ c = '\r' ∨ c = Char.ofNat 12 ∨ c = Char.ofNat 11

/-- A non-empty string of decimal digits. -/
def DigitString (ds : List Char) : Prop := ds ≠ [] ∧ ∀ c ∈ ds, '0' ≤ c ∧ c ≤ '9'

/-- `s` is blanks, then a plus or minus sign or nothing, then digits, and its value is `v`. -/
def SignedText (s : List Char) (v : Int) : Prop :=
  ∃ ws sg ds, s = ws ++ sg ++ ds ∧ (∀ c ∈ ws, Blank c) ∧ DigitString ds ∧
    ((sg = [] ∨ sg = ['+']) ∧ v = (Nat.ofDigitChars 10 ds 0 : Int) ∨
     sg = ['-'] ∧ v = -(Nat.ofDigitChars 10 ds 0 : Int))

/-- The same without a minus sign. -/
def UnsignedText (s : List Char) (v : Nat) : Prop :=
  ∃ ws sg ds, s = ws ++ sg ++ ds ∧ (∀ c ∈ ws, Blank c) ∧ DigitString ds ∧
    (sg = [] ∨ sg = ['+']) ∧ v = Nat.ofDigitChars 10 ds 0

/-- Comparison of versions: major first, then minor, then patch. -/
def Version.Older (a b : Version) : Prop :=
  a.major < b.major ∨ a.major = b.major ∧ (a.minor < b.minor ∨ a.minor = b.minor ∧ a.patch < b.patch)

/-- The words of a text are `ws`: they are non-empty, contain no blank, and are separated by blanks. -/
inductive Words : List Char → List (List Char) → Prop
  | done (s : List Char) : (∀ c ∈ s, Blank c) → Words s []
  | last (s w : List Char) : (∀ c ∈ s, Blank c) → w ≠ [] → (∀ c ∈ w, ¬ Blank c) → Words (s ++ w) [w]
  | cons (s w : List Char) (b : Char) (r : List Char) (ws : List (List Char)) :
      (∀ c ∈ s, Blank c) → w ≠ [] → (∀ c ∈ w, ¬ Blank c) → Blank b → Words (b :: r) ws →
      Words (s ++ w ++ b :: r) (w :: ws)

end Utils
end MZ
