import Verif.Scope.Model
import Mathlib.Data.List.Nodup
/-!
# Specification of scoping

`uses Γ e` lists the identifiers of an expression together with the declarations that static scoping prescribes.
-/
namespace MZ
namespace Scope

/-- A lexical environment: the declaration a name denotes. -/
abbrev Env := Name → Option Nat

/-- A declaration hides others of the same name; a declaration without a name hides nothing. -/
def ext (Γ : Env) (x : Name) (d : Nat) : Env := if x = "" then Γ else fun y => if y = x then some d else Γ y

mutual
/-- Every identifier (its occurrence) with the declaration it denotes. -/
def uses (Γ : Env) : Ex → List (Nat × Option Nat)
  | .lit => []
  | .id occ x => [(occ, Γ x)]
  | .node cs => usesL Γ cs
  | .call _ cs => usesL Γ cs
  | .ann as e => usesL Γ as ++ uses Γ e
  | .scope b => usesB Γ b
def usesL (Γ : Env) : Exs → List (Nat × Option Nat)
  | .nil => []
  | .cons e es => uses Γ e ++ usesL Γ es
/-- A declaration is visible in what follows it, but not in itself. -/
def usesB (Γ : Env) : Blk → List (Nat × Option Nat)
  | .fin e => uses Γ e
  | .step e b => uses Γ e ++ usesB Γ b
  | .decl d x body as b => uses Γ body ++ usesL Γ as ++ usesB (ext Γ x d) b
end

/-- The names of a scope after a further declaration. -/
def addName (x : Name) (ns : List Name) : List Name := if x = "" then ns else x :: ns

mutual
/-- No scope declares a name twice. -/
def Dis : Ex → Prop
  | .lit => True
  | .id _ _ => True
  | .node cs => DisL cs
  | .call _ cs => DisL cs
  | .ann as e => DisL as ∧ Dis e
  | .scope b => DisB [] b
def DisL : Exs → Prop
  | .nil => True
  | .cons e es => Dis e ∧ DisL es
def DisB (ns : List Name) : Blk → Prop
  | .fin e => Dis e
  | .step e b => Dis e ∧ DisB ns b
  | .decl _ x body as b => Dis body ∧ DisL as ∧ (x ≠ "" → x ∉ ns) ∧ DisB (addName x ns) b
end

/-- What is known about a declaration: the global declaration it is nested in (`none`: in another item), whether it is local, the
environment of its parts, and its parts. -/
structure Info where
  own : Option Nat
  loc : Bool
  env : Env
  body : Ex
  as : Exs

mutual
/-- The declarations inside an expression. -/
def infos (o : Option Nat) (Γ : Env) : Ex → List (Nat × Info)
  | .lit => []
  | .id _ _ => []
  | .node cs => infosL o Γ cs
  | .call _ cs => infosL o Γ cs
  | .ann as e => infosL o Γ as ++ infos o Γ e
  | .scope b => infosB o Γ b
def infosL (o : Option Nat) (Γ : Env) : Exs → List (Nat × Info)
  | .nil => []
  | .cons e es => infos o Γ e ++ infosL o Γ es
def infosB (o : Option Nat) (Γ : Env) : Blk → List (Nat × Info)
  | .fin e => infos o Γ e
  | .step e b => infos o Γ e ++ infosB o Γ b
  | .decl d x body as b => (d, ⟨o, true, Γ, body, as⟩) :: (infos o Γ body ++ infosL o Γ as ++ infosB o (ext Γ x d) b)
end

/-- The uses in the type, right-hand side and annotations of a declaration. -/
def Info.uses (i : Info) : List (Nat × Option Nat) := Scope.uses i.env i.body ++ usesL i.env i.as

noncomputable def Info.size (i : Info) : Nat := sizeOf i.body + sizeOf i.as

/-- The setting: the global declarations, what is known about all declarations, the global environment, and the bindings that may
be made. -/
structure Ctx where
  gs : List Decl
  I : Nat → Option Info
  Γ0 : Env
  Q : Nat → Nat → Prop

def Ctx.Glob (C : Ctx) (d : Nat) : Prop := ∃ c ∈ C.gs, c.d = d

structure Ctx.Ok (C : Ctx) : Prop where
  glob : ∀ c ∈ C.gs, C.I c.d = some ⟨some c.d, false, C.Γ0, c.body, c.as⟩
  inner : ∀ c ∈ C.gs, ∀ p ∈ infos (some c.d) C.Γ0 c.body ++ infosL (some c.d) C.Γ0 c.as, C.I p.1 = some p.2
  env : ∀ x d, C.Γ0 x = some d → C.Glob d
  q : ∀ c ∈ C.gs, ∀ u ∈ uses C.Γ0 c.body ++ usesL C.Γ0 c.as, ∀ h, u.2 = some h → C.Q u.1 h

/-- Every use is bound to a declaration that has a position below `k`. -/
def Bound (s : S) (us : List (Nat × Option Nat)) (k : Nat) : Prop :=
  ∀ u ∈ us, ∃ h j, u.2 = some h ∧ (u.1, h) ∈ s.log ∧ s.pos h = some (some j) ∧ j < k

structure Inv (C : Ctx) (s : S) : Prop where
  top : ∃ g, s.scopes.getLast? = some g ∧ g.st = .top ∧ ∀ x, look g.m x = C.Γ0 x
  done : ∀ p i k, s.pos p = some (some k) → C.I p = some i → Bound s i.uses k ∧ Dis i.body ∧ DisL i.as
  decls : ∀ p k, s.pos p = some (some k) → s.decls[k]? = some p
  decls' : ∀ (k p : Nat), s.decls[k]? = some p → s.pos p = some (some k)
  own : ∀ p i g, s.pos p ≠ none → C.I p = some i → i.own = some g → s.pos g ≠ none
  log : ∀ q ∈ s.log, C.Q q.1 q.2
  dom : ∀ p, s.pos p ≠ none → ∃ i, C.I p = some i

/-- What a part of the pass may change. -/
structure Frame (s s' : S) : Prop where
  mono : ∀ p v, s.pos p = some v → s'.pos p = some v
  prog : ∀ p, s'.pos p = some none → s.pos p = some none
  log : ∀ q ∈ s.log, q ∈ s'.log

theorem Frame.refl (s : S) : Frame s s := ⟨fun _ _ h => h, fun _ h => h, fun _ h => h⟩

theorem Frame.trans {a b c : S} (h : Frame a b) (g : Frame b c) : Frame a c :=
  ⟨fun p v e => g.mono p v (h.mono p v e), fun p e => h.prog p (g.prog p e), fun q e => g.log q (h.log q e)⟩

theorem Bound.mono {s s' : S} {us : List (Nat × Option Nat)} {k k' : Nat} (h : Bound s us k) (f : Frame s s') (hk : k ≤ k') : Bound s' us k' := by
  intro u hu
  obtain ⟨d, j, h1, h2, h3, h4⟩ := h u hu
  exact ⟨d, j, h1, f.log _ h2, f.mono _ _ h3, by omega⟩

theorem Bound.append {s : S} {us vs : List (Nat × Option Nat)} {k : Nat} : Bound s (us ++ vs) k ↔ Bound s us k ∧ Bound s vs k := by
  unfold Bound
  constructor
  · exact fun h => ⟨fun u hu => h u (List.mem_append_left _ hu), fun u hu => h u (List.mem_append_right _ hu)⟩
  · rintro ⟨h1, h2⟩ u hu
    rcases List.mem_append.1 hu with hu | hu
    · exact h1 u hu
    · exact h2 u hu

theorem R.bind_ok {α β : Type} {r : R α} {f : α → R β} {b : β} (h : r.bind f = .ok b) : ∃ a, r = .ok a ∧ f a = .ok b := by
  cases r with
  | ok a => exact ⟨a, rfl, h⟩
  | _ => simp [R.bind] at h

/-! ### Lookup -/

theorem look_cons (x y : Name) (d : Nat) (m : List (Name × Nat)) : look ((x, d) :: m) y = if y = x then some d else look m y := by
  unfold look
  rw [List.find?_cons]
  by_cases h : y = x
  · simp [h]
  · have : (x == y) = false := by simpa using fun e => h e.symm
    simp [this, h]

theorem look_none {m : List (Name × Nat)} {x : Name} : look m x = none ↔ x ∉ m.map (·.1) := by
  unfold look
  simp only [Option.map_eq_none_iff, List.find?_eq_none, List.mem_map, not_exists, not_and, beq_iff_eq]

theorem find_push (s : S) (x : Name) : find (push s .inner).scopes x = find s.scopes x := by
  simp [push, find, look]

theorem find_pushFn (s : S) (x : Name) : find (push s .fn).scopes x = find s.scopes x := by
  simp [push, find, look]

theorem find_top {C : Ctx} {s : S} (h : Inv C s) (x : Name) : find (push s .top).scopes x = C.Γ0 x := by
  obtain ⟨g, h1, -, h2⟩ := h.top
  simp [push, find, look, h1]
  exact h2 x

theorem find_add {m : List (Name × Nat)} {t : ST} {rest : List Sc} {x : Name} {d : Nat} {Γ : Env} (h : ∀ y, find (⟨t, m⟩ :: rest) y = Γ y)
    (hx : x ≠ "") (hn : look m x = none) (y : Name) : find (⟨t, (x, d) :: m⟩ :: rest) y = ext Γ x d y := by
  have := h y
  rw [find] at this ⊢
  simp only [look_cons, ext, if_neg hx] at *
  by_cases e : y = x
  · simp [e]
  · simp only [e, if_false]; exact this

end Scope
end MZ
