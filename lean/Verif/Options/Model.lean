import Verif.Utils.Model
/-!
# Model: command-line options (`CLOParser`, include/minizinc/utils.hh 108–177)

Strings are lists of characters; the option names are given as the list of the words of the first argument.
The value type is `V`, and `read` stands for `assign_string` (which stores any text) or for extraction from a
string stream (which can fail).
-/
namespace MZ
namespace Options
open Utils

/-- What a call to `getOption` leaves behind: the result, the new current item, and what was stored. -/
structure Outcome (V : Type) where
  found : Bool
  i : Nat
  stored : Option V
deriving DecidableEq, Repr

/-- utils.hh 122–176 `getOption`, the loop over the names from line 136. `read = none` stands for a null
`pResult`. -/
def tryNames {V : Type} (read : Option (List Char → Option V)) (optional : Bool) (argv : List (List Char))
    (i : Nat) (arg : List Char) : List (List Char) → Outcome V
  | [] => ⟨false, i, none⟩
  | k :: ks =>
    -- 137–140
    if ((2 < k.length ∨ read.isNone) ∧ arg ≠ k) ∨ arg.take k.length ≠ k then
      tryNames read optional argv i arg ks
    else
      match read with
      | none =>
        -- 144–146, 150–152
        if k.length < arg.length then tryNames read optional argv i arg ks else ⟨true, i, none⟩
      | some rd =>
        if k.length < arg.length then
          -- 147–148, 161–173
          match rd (arg.drop k.length) with
          | none => ⟨optional, i, none⟩
          | some v => ⟨true, i, some v⟩
        else
          -- 153–158, 161–173
          match argv[i + 1]? with
          | none => ⟨optional, i, none⟩
          | some a =>
            match rd a with
            | none => ⟨optional, i, none⟩
            | some v => ⟨true, i + 1, some v⟩

/-- utils.hh 122–176 `getOption`. -/
def getOption {V : Type} (names : List (List Char)) (read : Option (List Char → Option V)) (optional : Bool)
    (argv : List (List Char)) (i : Nat) : Outcome V :=
  match argv[i]? with
  | none => ⟨false, i, none⟩
  | some arg => tryNames read optional argv i arg names

end Options
end MZ
