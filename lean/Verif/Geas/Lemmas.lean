import Verif.Geas.Spec
import Mathlib.Tactic.SplitIfs
import Mathlib.Tactic.Push
import Mathlib.Tactic.Tauto
import Mathlib.Tactic.Linarith

namespace MZ
namespace Geas

theorem posts_of {d n p c P} (h : poster d n = some p)
    (h2 : ∃ ps, p c = .ok ps ∧ ∀ a, (∀ q ∈ ps, q.holds a) ↔ P a) : Posts d n c P := by
  obtain ⟨ps, h2, h3⟩ := h2
  exact ⟨ps, by simp only [post, h]; exact h2, h3⟩

theorem postsIn_of {D d n p c P} (h : poster d n = some p)
    (h2 : ∃ ps, p c = .ok ps ∧ ∀ a, D a → ((∀ q ∈ ps, q.holds a) ↔ P a)) : PostsIn D d n c P := by
  obtain ⟨ps, h2, h3⟩ := h2
  exact ⟨ps, by simp only [post, h]; exact h2, h3⟩

/-- An integer argument and the solver's expression for it. -/
theorem int_arg {e : Arg} (h : e.IsInt) : ∃ v, e.asIntVar = .ok v ∧ ∀ a, v.val a = e.int! a := by
  cases e with
  | int c => exact ⟨_, rfl, fun a => rfl⟩
  | ivar x => exact ⟨_, rfl, fun a => rfl⟩
  | _ => exact h.elim

/-- A Boolean argument and the solver's atom for it. -/
theorem bool_arg {e : Arg} (h : e.IsBool) : ∃ l, e.asBoolVar = .ok l ∧ ∀ a, l.holds a ↔ e.bool! a = true := by
  cases e with
  | bool b => cases b <;> exact ⟨_, rfl, fun a => by simp [Atom.holds, Arg.bool!]⟩
  | bvar x => exact ⟨_, rfl, fun a => by simp [Atom.holds, Arg.bool!]⟩
  | _ => exact h.elim

/-- Boolean arguments are known or variables. -/
theorem bool_cases {e : Arg} (h : e.IsBool) : (∃ b, e = .bool b) ∨ ∃ x, e = .bvar x := by
  cases e with
  | bool b => exact .inl ⟨b, rfl⟩
  | bvar x => exact .inr ⟨x, rfl⟩
  | _ => exact h.elim

theorem int_cases {e : Arg} (h : e.IsInt) : (∃ b, e = .int b) ∨ ∃ x, e = .ivar x := by
  cases e with
  | int b => exact .inl ⟨b, rfl⟩
  | ivar x => exact .inr ⟨x, rfl⟩
  | _ => exact h.elim

theorem small_toInt32 {c : Int} (h : Small c) : toInt32 c = c := by
  unfold Small at h; unfold toInt32; omega

theorem each_consts {ks : List Int} (h : ∀ k ∈ ks, Small k) : each Arg.asInt (ks.map Arg.int) = .ok ks := by
  induction ks with
  | nil => rfl
  | cons k ks ih =>
    simp only [List.map_cons, each, Arg.asInt, small_toInt32 (h k (by simp)), Res.ok_bind,
      ih (fun k hk => h k (by simp [hk]))]

theorem each_ints {l : List Arg} (h : ∀ e ∈ l, e.IsInt) :
    ∃ xs, each Arg.asIntVar l = .ok xs ∧ ∀ a, xs.map (IVar.val a) = ints! a l := by
  induction l with
  | nil => exact ⟨[], rfl, fun a => rfl⟩
  | cons e l ih =>
    obtain ⟨xs, h1, h2⟩ := ih (fun e he => h e (by simp [he]))
    obtain ⟨v, h3, h4⟩ := int_arg (h e (by simp))
    exact ⟨v :: xs, by simp [each, h1, h3], fun a => by simp only [List.map_cons, h2 a, h4 a]; rfl⟩

theorem each_bools {l : List Arg} (h : ∀ e ∈ l, e.IsBool) :
    ∃ xs, each Arg.asBoolVar l = .ok xs ∧ ∀ a, List.Forall₂ (fun x e => x.holds a ↔ Arg.bool! a e = true) xs l := by
  induction l with
  | nil => exact ⟨[], rfl, fun a => .nil⟩
  | cons e l ih =>
    obtain ⟨xs, h1, h2⟩ := ih (fun e he => h e (by simp [he]))
    obtain ⟨v, h3, h4⟩ := bool_arg (h e (by simp))
    exact ⟨v :: xs, by simp [each, h1, h3], fun a => .cons (h4 a) (h2 a)⟩

theorem forall₂_exists {a : Asg} {xs : List Atom} {l : List Arg}
    (h : List.Forall₂ (fun x e => x.holds a ↔ Arg.bool! a e = true) xs l) :
    (∃ x ∈ xs, x.holds a) ↔ true ∈ bools! a l := by
  induction h with
  | nil => simp [bools!]
  | cons h1 _ ih =>
    simp only [List.mem_cons, exists_eq_or_imp, h1, ih, bools!, List.map_cons]
    rw [eq_comm (a := true)]

theorem forall₂_exists_not {a : Asg} {xs : List Atom} {l : List Arg}
    (h : List.Forall₂ (fun x e => x.holds a ↔ Arg.bool! a e = true) xs l) :
    (∃ x ∈ xs, ¬ x.holds a) ↔ false ∈ bools! a l := by
  induction h with
  | nil => simp [bools!]
  | cons h1 _ ih =>
    simp only [List.mem_cons, exists_eq_or_imp, h1, ih, bools!, List.map_cons]
    rw [eq_comm (a := false)]; simp

theorem forall₂_numbers {a : Asg} {xs : List Atom} {l : List Arg}
    (h : List.Forall₂ (fun x e => x.holds a ↔ Arg.bool! a e = true) xs l) :
    xs.map (fun x => ind (x.holds a)) = numbers (bools! a l) := by
  induction h with
  | nil => rfl
  | cons h1 _ ih =>
    simp only [List.map_cons, ih]; simp only [numbers, bools!, List.map_cons, ind, h1]

theorem dot_negs (ks vs : List Int) : dot (negs ks) vs = -dot ks vs := by
  unfold dot negs
  induction ks generalizing vs with
  | nil => simp
  | cons k ks ih =>
    cases vs with
    | nil => simp
    | cons v vs => simp only [List.map_cons, List.zipWith_cons_cons, List.sum_cons, ih]; rw [Int.neg_mul]; omega

/-! ## Reading the arguments of calls -/

theorem asBoolVar_bvar (z : Nat) : (Arg.bvar z).asBoolVar = .ok (.b z) := rfl

theorem asIntVar_ivar (z : Nat) : (Arg.ivar z).asIntVar = .ok (.var z) := rfl
theorem asInt_int (c : Int) : (Arg.int c).asInt = .ok (toInt32 c) := rfl
theorem asInt_bool (b : Bool) : (Arg.bool b).asInt = .ok (if b then 1 else 0) := rfl
theorem one_zero (x : Arg) (l) : one (.one x :: l) 0 = .ok x := rfl
theorem one_one (p) (x : Arg) (l) : one (p :: .one x :: l) 1 = .ok x := rfl
theorem one_two (p q) (x : Arg) (l) : one (p :: q :: .one x :: l) 2 = .ok x := rfl
theorem one_three (p q r) (x : Arg) (l) : one (p :: q :: r :: .one x :: l) 3 = .ok x := rfl
theorem par_zero (x : Arg) (l) : par (.one x :: l) 0 = .ok x.isPar := rfl
theorem par_one (p) (x : Arg) (l) : par (p :: .one x :: l) 1 = .ok x.isPar := rfl
theorem par_two (p q) (x : Arg) (l) : par (p :: q :: .one x :: l) 2 = .ok x.isPar := rfl
theorem par_three (p q r) (x : Arg) (l) : par (p :: q :: r :: .one x :: l) 3 = .ok x.isPar := rfl
theorem para_one (p v x l) : par (p :: .arr v x :: l) 1 = .ok (!v) := rfl
theorem para_two (p q v x l) : par (p :: q :: .arr v x :: l) 2 = .ok (!v) := rfl
theorem array_zero (v x l) : array (.arr v x :: l) 0 = .ok x := rfl
theorem array_one (p v x l) : array (p :: .arr v x :: l) 1 = .ok x := rfl
theorem array_two (p q v x l) : array (p :: q :: .arr v x :: l) 2 = .ok x := rfl
theorem swapped_three (p q l) : swapped (p :: q :: l) = .ok [q, p] := rfl

end Geas
end MZ
