import Verif.Json.Parse

/-!
# Where the JSON reader does not follow the notation (C53)
-/

namespace MZ
namespace Json

/-! A check for equality of the expressions occurring below, so that the kernel can evaluate them. -/

mutual
def JE.same : JE → JE → Bool
  | .int a, .int b => decide (a = b)
  | .intSet a, .intSet b => decide (a = b)
  | .arr a, .arr b => sameL a b
  | .call n a, .call m b => decide (n = m) && sameL a b
  | _, _ => false

def sameL : List JE → List JE → Bool
  | [], [] => true
  | a :: l, b :: m => a.same b && sameL l m
  | _, _ => false
end

mutual
theorem JE.same_eq (a b : JE) (h : a.same b = true) : a = b := by
  cases a <;> cases b <;> simp only [JE.same, Bool.false_eq_true, decide_eq_true_eq, Bool.and_eq_true] at h
  · rw [h]
  · rw [sameL_eq _ _ h]
  · rw [h]
  · rw [h.1, sameL_eq _ _ h.2]

theorem sameL_eq (l m : List JE) (h : sameL l m = true) : l = m := by
  cases l <;> cases m <;> simp only [sameL, Bool.false_eq_true, Bool.and_eq_true] at h
  · rfl
  · rw [JE.same_eq _ _ h.1, sameL_eq _ _ h.2]
end

/-- The text is read as a single assignment. -/
def readsAs (r : Res (List (List Char × JE))) (k : List Char) (e : JE) : Bool :=
  match r with
  | .ok [(k', e')] => decide (k' = k) && e'.same e
  | _ => false

theorem readsAs_eq {r : Res (List (List Char × JE))} {k : List Char} {e : JE} (h : readsAs r k e = true) :
    r = .ok [(k, e)] := by
  unfold readsAs at h
  split at h
  · simp only [Bool.and_eq_true, decide_eq_true_eq] at h
    rw [h.1, JE.same_eq _ _ h.2]
  · simp at h

/-- Reading ends with an error. -/
def isErr (r : Res (List (List Char × JE))) : Bool :=
  match r with
  | .err => true
  | _ => false

theorem isErr_eq {r : Res (List (List Char × JE))} (h : isErr r = true) : r = .err := by
  unfold isErr at h
  split at h
  · rfl
  · simp at h

/-- Reading has undefined behaviour. -/
def isUb (r : Res (List (List Char × JE))) : Bool :=
  match r with
  | .ub => true
  | _ => false

theorem isUb_eq {r : Res (List (List Char × JE))} (h : isUb r = true) : r = .ub := by
  unfold isUb at h
  split at h
  · rfl
  · simp at h

end Json

open Json

/-- Types declared in the examples: an array and a plain integer. -/
def exampleArr : TI := ⟨false, .int, false, [none]⟩
def exampleInt : TI := ⟨false, .int, false, []⟩

/-- **C53 fails for texts that are not JSON.**  Missing and repeated commas in lists are accepted;
booleans between the numbers of a set are dropped. -/
theorem C53_accepts_fails :
    parseData (fun _ => some exampleArr) "{\"a\":[1 2,,3]}".toList =
      .ok [(['a'], .call "array1d".toList [.intSet [⟨.fin 1, .posInf⟩], .arr [.int 1, .int 2, .int 3]])] ∧
    parseData (fun _ => some exampleInt) "{\"x\":{\"set\":[1,true,3]}}".toList =
      .ok [(['x'], .intSet [⟨.fin 1, .fin 1⟩, ⟨.fin 3, .fin 3⟩])] := by
  refine ⟨readsAs_eq ?_, readsAs_eq ?_⟩ <;> decide +kernel

/-- **C53 fails for some JSON texts.**  The empty document, empty objects and exponents with a plus
sign are rejected. -/
theorem C53_rejects_fails :
    parseData (fun _ => some exampleInt) "{}".toList = .err ∧
    parseData (fun _ => some exampleInt) "{\"y\":{}}".toList = .err ∧
    parseData (fun _ => some exampleInt) "{\"x\":1e+5}".toList = .err := by
  refine ⟨isErr_eq ?_, isErr_eq ?_, isErr_eq ?_⟩ <;> decide +kernel

/-- **C53 fails for enumeration objects.**  An object `{"i": 1}` for an integer or enumeration
parameter makes the reader use an uninitialised pointer. -/
theorem C53_enum_object_fails :
    parseData (fun _ => some exampleInt) "{\"x\":{\"i\":1}}".toList = .ub := by
  refine isUb_eq ?_
  decide +kernel

end MZ
