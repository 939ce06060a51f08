import Mathlib.Algebra.Order.Field.Rat
import Mathlib.Data.List.Nodup
import Mathlib.Tactic.FieldSimp
import Mathlib.Tactic.Linarith
import Mathlib.Tactic.Ring

/-! # Groups of variables linked by equations with two variables (`lib/MIPdomains.cpp`) -/

namespace MZ.Mip

/-- `c0 * v0 + c1 * v1 = rhs`: `LinEq2Vars` (`lib/MIPdomains.cpp` 742–765). -/
structure Eq2 where
  v0 : Nat
  v1 : Nat
  c0 : ℚ
  c1 : ℚ
  rhs : ℚ
deriving DecidableEq

/-- The equation holds. -/
def Eq2.Holds (σ : Nat → ℚ) (e : Eq2) : Prop := e.c0 * σ e.v0 + e.c1 * σ e.v1 = e.rhs

/-! ## Cliques -/

/-- The clique of every variable, and the equations of every clique. -/
structure Cliques where
  nClique : Nat → Option Nat
  cls : Nat → List Eq2
  size : Nat

/-- No clique (`lib/MIPdomains.cpp` 926–927). -/
def Cliques.empty : Cliques := ⟨fun _ => none, fun _ => [], 0⟩

/-- One variable of the equation in the loop that merges cliques (`lib/MIPdomains.cpp` 980–998). -/
def joinVar (k : Nat) (s : Cliques) (v : Nat) : Cliques :=
  match s.nClique v with
  | none => { s with nClique := fun x => if x = v then some k else s.nClique x }
  | some m =>
    if m = k then { s with nClique := fun x => if x = v then some k else s.nClique x }
    else
      { s with
        nClique := fun x => if x = v ∨ ∃ e ∈ s.cls m, x = e.v0 ∨ x = e.v1 then some k else s.nClique x
        cls := fun j => if j = k then s.cls k ++ s.cls m else if j = m then [] else s.cls j }

/-- `put2VarsConnection`; `none` stands for a model found to be inconsistent (`lib/MIPdomains.cpp` 935–1000).  That the
variables are numbered, and that their own definitions are looked at, is not modelled. -/
def put2 (s : Cliques) (e : Eq2) : Option Cliques :=
  if e.v0 = e.v1 then if |e.c0 + e.c1| < 1 / 1000000 then some s else none
  else
    let k := match s.nClique e.v1, s.nClique e.v0 with | some m, _ => m | none, some m => m | none, none => s.size
    let s1 : Cliques := ⟨s.nClique, fun j => if j = k then s.cls k ++ [e] else s.cls j, max s.size (k + 1)⟩
    some (joinVar k (joinVar k s1 e.v0) e.v1)

/-! ## Relations to one variable -/

/-- The relations of a variable to others: `x = A y + B` (`TMapVars`, `lib/MIPdomains.cpp` 1012). -/
abbrev Rels := List (Nat × ℚ × ℚ)

/-- Storing in a map. -/
def Rels.put (m : Rels) (y : Nat) (r : ℚ × ℚ) : Rels :=
  if m.any (fun p => p.1 = y) then m.map fun p => if p.1 = y then (y, r) else p else m ++ [(y, r)]

/-- `LinEqGraph`: the relations of every variable, `none` if it is not there (`lib/MIPdomains.cpp` 1034). -/
abbrev Graph := List (Nat × Rels)

/-- The relations of a variable. -/
def Graph.get (g : Graph) (x : Nat) : Rels := match g.find? (fun p => p.1 = x) with | some p => p.2 | none => []

/-- Storing an arc. -/
def Graph.put (g : Graph) (x y : Nat) (r : ℚ × ℚ) : Graph :=
  if g.any (fun p => p.1 = x) then g.map fun p => if p.1 = x then (x, p.2.put y r) else p else g ++ [(x, [(y, r)])]

/-- `addArc`: `a x + b y = c` is `x = - b / a y + c / a` (`lib/MIPdomains.cpp` 1045–1064). -/
def addArc (g : Graph) (x y : Nat) (a b c : ℚ) : Graph := g.put x y (-b / a, c / a)

/-- `addEdge` (`lib/MIPdomains.cpp` 1065–1068). -/
def addEdge (g : Graph) (e : Eq2) : Graph := addArc (addArc g e.v0 e.v1 e.c0 e.c1 e.rhs) e.v1 e.v0 e.c1 e.c0 e.rhs

/-- `propagate2`, with a bound on the depth of the recursion (`lib/MIPdomains.cpp` 1087–1114). -/
def propagate2 (g : Graph) (src : Nat) : Nat → Nat → ℚ × ℚ → Rels → Option Rels
  | 0, _, _, _ => none
  | fuel + 1, via, rel, store =>
    (g.get via).foldlM (fun store d =>
      if d.1 = src then some store
      else
        let r := (rel.1 * d.2.1, rel.1 * d.2.2 + rel.2)
        if src ≠ via then
          if store.any (fun p => p.1 = d.1) then some store else propagate2 g src fuel d.1 r (store.put d.1 r)
        else propagate2 g src fuel d.1 r store) store

/-- `propagate`; `none` stands for a failed assertion (`lib/MIPdomains.cpp` 1070–1085). -/
def propagate (g : Graph) (src : Nat) : Option Rels :=
  match propagate2 g src (g.length + 1) src (1, 0) (g.get src) with
  | some m => if m.length = g.length - 1 then some m else none
  | none => none

/-- What is known of a variable when the reference variable is chosen (`lib/MIPdomains.cpp` 1136–1139). -/
structure Crit where
  isInt : Bool
  hasEnc : Bool
  factor : ℚ
  payload : Int

/-- The order of `std::tuple` (`lib/MIPdomains.cpp` 1145). -/
def Crit.gt (a b : Crit) : Bool :=
  if a.isInt ≠ b.isInt then a.isInt
  else if a.hasEnc ≠ b.hasEnc then a.hasEnc
  else if a.factor ≠ b.factor then decide (b.factor < a.factor)
  else decide (b.payload < a.payload)

/-- `doRelate`: the reference variable and the relations of the others to it, with its own (`lib/MIPdomains.cpp` 1117–1150,
1174). -/
def relate (crit : Nat → Bool × Bool) (eqs : List Eq2) : Option (Nat × Rels) :=
  let g := eqs.foldl addEdge []
  match g with
  | [] => none
  | (x0, _) :: _ =>
    (propagate g x0).bind fun m0 =>
      let best := m0.foldl (fun (b : Nat × Crit) p =>
        let c : Crit := ⟨(crit p.1).1, (crit p.1).2, |p.2.1|, - (p.1 : Int)⟩
        if c.gt b.2 then (p.1, c) else b) (x0, ⟨(crit x0).1, (crit x0).2, 1, - (x0 : Int)⟩)
      (propagate g best.1).map fun m => (best.1, (best.1, 1, 0) :: m)

/-! ## Proofs -/

/-- Everything in the map is a relation that holds. -/
def Sound (σ : Nat → ℚ) (x : Nat) (m : Rels) : Prop := ∀ p ∈ m, σ x = p.2.1 * σ p.1 + p.2.2

theorem mem_put {m : Rels} {y : Nat} {r : ℚ × ℚ} {p : Nat × ℚ × ℚ} (h : p ∈ m.put y r) : p ∈ m ∨ p = (y, r) := by
  unfold Rels.put at h
  split at h
  · obtain ⟨q, hq, rfl⟩ := List.mem_map.mp h
    split
    · exact .inr rfl
    · exact .inl hq
  · rcases List.mem_append.mp h with h | h
    · exact .inl h
    · exact .inr (by simpa using h)

theorem keys_put {m : Rels} {y : Nat} {r : ℚ × ℚ} : (m.put y r).map Prod.fst = if y ∈ m.map Prod.fst then m.map Prod.fst
    else m.map Prod.fst ++ [y] := by
  unfold Rels.put
  have hiff : m.any (fun p => p.1 = y) = true ↔ y ∈ m.map Prod.fst := by simp
  by_cases h : y ∈ m.map Prod.fst
  · rw [if_pos (hiff.mpr h), if_pos h, List.map_map]
    refine List.map_congr_left fun p _ => ?_
    simp only [Function.comp_apply]
    split
    · rename_i hp; exact hp.symm
    · rfl
  · rw [if_neg (mt hiff.mp h), if_neg h, List.map_append]; rfl

theorem nodup_put {m : Rels} {y : Nat} {r : ℚ × ℚ} (h : (m.map Prod.fst).Nodup) : ((m.put y r).map Prod.fst).Nodup := by
  rw [keys_put]
  split
  · exact h
  · rename_i hy
    refine List.Nodup.append h (by simp) ?_
    simpa using hy

/-- All of a property of relations holds in the graph. -/
def AllG (P : Nat → Nat × ℚ × ℚ → Prop) (g : Graph) : Prop := ∀ q ∈ g, ∀ p ∈ q.2, P q.1 p

theorem allG_put {P : Nat → Nat × ℚ × ℚ → Prop} {g : Graph} {x y : Nat} {r : ℚ × ℚ} (h : AllG P g) (hp : P x (y, r)) :
    AllG P (g.put x y r) := by
  intro q hq p hm
  unfold Graph.put at hq
  split at hq
  · obtain ⟨q', hq', rfl⟩ := List.mem_map.mp hq
    split at hm
    · rename_i hx
      rw [if_pos hx]
      rcases mem_put hm with hm | rfl
      · exact hx ▸ h q' hq' p hm
      · exact hp
    · rename_i hx
      rw [if_neg hx]
      exact h q' hq' p hm
  · rcases List.mem_append.mp hq with hq | hq
    · exact h q hq p hm
    · rw [List.mem_singleton] at hq
      subst hq
      rw [List.mem_singleton] at hm
      subst hm
      exact hp

theorem allG_get {P : Nat → Nat × ℚ × ℚ → Prop} {g : Graph} (h : AllG P g) (x : Nat) : ∀ p ∈ g.get x, P x p := by
  intro p hp
  unfold Graph.get at hp
  cases hf : g.find? (fun p => p.1 = x) with
  | none => rw [hf] at hp; simp at hp
  | some q =>
    rw [hf] at hp
    have hx := List.find?_some hf
    simp only [decide_eq_true_eq] at hx
    exact hx ▸ h q (List.mem_of_find?_eq_some hf) p hp

theorem keys_graph_put {g : Graph} {x y : Nat} {r : ℚ × ℚ} : (g.put x y r).map Prod.fst =
    if x ∈ g.map Prod.fst then g.map Prod.fst else g.map Prod.fst ++ [x] := by
  unfold Graph.put
  have hiff : g.any (fun p => p.1 = x) = true ↔ x ∈ g.map Prod.fst := by simp
  by_cases h : x ∈ g.map Prod.fst
  · rw [if_pos (hiff.mpr h), if_pos h, List.map_map]
    refine List.map_congr_left fun p _ => ?_
    simp only [Function.comp_apply]
    split
    · rename_i hp; exact hp.symm
    · rfl
  · rw [if_neg (mt hiff.mp h), if_neg h, List.map_append]; rfl

theorem mem_keys_put {g : Graph} {x y z : Nat} {r : ℚ × ℚ} : z ∈ (g.put x y r).map Prod.fst ↔ z ∈ g.map Prod.fst ∨ z = x := by
  rw [keys_graph_put]
  split
  · rename_i h
    constructor
    · exact .inl
    · rintro (h' | rfl)
      · exact h'
      · exact h
  · simp

/-- The variables of the equations. -/
theorem keys_edges (eqs : List Eq2) : ∀ g : Graph, ∀ x, x ∈ (eqs.foldl addEdge g).map Prod.fst ↔
    x ∈ g.map Prod.fst ∨ ∃ e ∈ eqs, x = e.v0 ∨ x = e.v1 := by
  induction eqs with
  | nil => intro g x; simp
  | cons e t ih =>
    intro g x
    rw [List.foldl_cons, ih]
    unfold addEdge addArc
    rw [mem_keys_put, mem_keys_put]
    simp only [List.mem_cons, exists_eq_or_imp, or_assoc]

theorem nodup_edges (eqs : List Eq2) : ∀ g : Graph, (g.map Prod.fst).Nodup → ((eqs.foldl addEdge g).map Prod.fst).Nodup := by
  have one : ∀ (g : Graph) x y r, (g.map Prod.fst).Nodup → ((g.put x y r).map Prod.fst).Nodup := by
    intro g x y r h
    rw [keys_graph_put]
    split
    · exact h
    · rename_i hx
      exact List.Nodup.append h (by simp) (by simpa using hx)
  induction eqs with
  | nil => intro g h; exact h
  | cons e t ih => intro g h; exact ih _ (one _ _ _ _ (one _ _ _ _ h))

theorem allG_edges {P : Nat → Nat × ℚ × ℚ → Prop} (eqs : List Eq2)
    (h : ∀ e ∈ eqs, P e.v0 (e.v1, -e.c1 / e.c0, e.rhs / e.c0) ∧ P e.v1 (e.v0, -e.c0 / e.c1, e.rhs / e.c1)) :
    ∀ g : Graph, AllG P g → AllG P (eqs.foldl addEdge g) := by
  induction eqs with
  | nil => intro g hg; exact hg
  | cons e t ih =>
    intro g hg
    have he := h e (by simp)
    exact ih (fun e' he' => h e' (by simp [he'])) _ (allG_put (allG_put hg he.1) he.2)

/-- What a search keeps of its store. -/
theorem propagate2_inv {g : Graph} {src : Nat} (I : Rels → Prop) (R : Nat → ℚ × ℚ → Prop)
    (hput : ∀ m y r, I m → R y r → y ≠ src → I (m.put y r))
    (harc : ∀ via rel, R via rel → ∀ d ∈ g.get via, R d.1 (rel.1 * d.2.1, rel.1 * d.2.2 + rel.2)) (fuel : Nat) :
    ∀ via rel store store', R via rel → I store → propagate2 g src fuel via rel store = some store' → I store' := by
  induction fuel with
  | zero => intro via rel store store' _ _ h; simp [propagate2] at h
  | succ fuel ih =>
    intro via rel store store' hR hI h
    unfold propagate2 at h
    have harc' := harc via rel hR
    generalize g.get via = ds at h harc'
    induction ds generalizing store with
    | nil => simp only [List.foldlM_nil] at h; exact (Option.some.inj h) ▸ hI
    | cons d t iht =>
      rw [List.foldlM_cons] at h
      obtain ⟨s1, h1, h2⟩ := Option.bind_eq_some_iff.mp h
      refine iht s1 ?_ h2 (fun d' hd' => harc' d' (by simp [hd']))
      have hd := harc' d (by simp)
      by_cases hs : d.1 = src
      · rw [if_pos hs] at h1; exact (Option.some.inj h1) ▸ hI
      · rw [if_neg hs] at h1
        dsimp only at h1
        by_cases hv : src ≠ via
        · rw [if_pos hv] at h1
          by_cases ha : store.any (fun p => p.1 = d.1) = true
          · rw [if_pos ha] at h1; exact (Option.some.inj h1) ▸ hI
          · rw [if_neg ha] at h1
            exact ih _ _ _ _ hd (hput _ _ _ hI hd hs) h1
        · rw [if_neg hv] at h1
          exact ih _ _ _ _ hd hI h1

end MZ.Mip
