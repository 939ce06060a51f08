import Verif.Regex.Spec
import Mathlib.Tactic.Push

/-! # The parser and the syntax -/

namespace MZ
namespace Regex

/-- The values of a member of a class, in the order of the loops. -/
def Item.vals : Item → List Int
  | .one a => [(a : Int)]
  | .between a b => if b < a then upto b a else upto a b

/-- The values of a class. -/
def vals (l : List Item) : List Int := l.flatMap Item.vals

/-- What is built for an expression. -/
def act (lo hi : Int) : Re → Option Reg
  | .num n => some (.sym n)
  | .any => anyOf (upto lo hi)
  | .cls l => anyOf (vals l)
  | .notCls l => anyOf (complement lo hi (vals l))
  | .alt r s => do some (.alt (← act lo hi r) (← act lo hi s))
  | .cat r s => do some (.cat (← act lo hi r) (← act lo hi s))
  | .star r => do some (.star (← act lo hi r))
  | .optional r => do some (.quant (← act lo hi r) 0 1)
  | .plus r => do some (.plus (← act lo hi r))
  | .exact r n => do some (.quant (← act lo hi r) n n)
  | .atLeast r n => do some (.atLeast (← act lo hi r) n)
  | .between r n m => do some (.quant (← act lo hi r) n m)

/-! ## Classes -/

theorem setItem_sound {ts us : List Tok} {l : List Int} (h : setItem ts = some (l, us)) :
    ∃ i : Item, l = i.vals ∧ ((∃ a, i = .one a ∧ ts = .int a :: us) ∨ ∃ a b, i = .between a b ∧ ts = .int a :: .range :: .int b :: us) := by
  unfold setItem at h
  split at h
  · rename_i a b ts
    simp only [Option.some.injEq, Prod.mk.injEq] at h
    exact ⟨.between a b, h.1.symm, Or.inr ⟨a, b, rfl, by rw [h.2]⟩⟩
  · simp at h
  · rename_i a ts _ _
    simp only [Option.some.injEq, Prod.mk.injEq] at h
    exact ⟨.one a, h.1.symm, Or.inl ⟨a, rfl, by rw [h.2]⟩⟩
  · simp at h

theorem setItems_sound : ∀ (n : Nat) {ts us : List Tok} {l : List Int}, setItems n ts = some (l, us) →
    ∃ ts' is, ts = ts' ++ us ∧ Items ts' is ∧ l = vals is := by
  intro n
  induction n with
  | zero => intro ts us l h; simp [setItems] at h
  | succ n ih =>
    intro ts us l h
    rw [setItems] at h
    simp only [bind, Option.bind_eq_some_iff] at h
    obtain ⟨⟨l₁, vs⟩, h1, h2⟩ := h
    obtain ⟨i, hi, hs⟩ := setItem_sound h1
    dsimp only at h2
    split at h2
    · simp only [Option.bind_eq_some_iff] at h2
      obtain ⟨⟨l₂, ws⟩, h3, h4⟩ := h2
      simp only [Option.some.injEq, Prod.mk.injEq] at h4
      obtain ⟨ts', is, e, hI, hl⟩ := ih h3
      rcases hs with ⟨a, rfl, hs⟩ | ⟨a, b, rfl, hs⟩
      · refine ⟨.int a :: ts', .one a :: is, by rw [hs, e, ← h4.2]; rfl, .consOne a hI, ?_⟩
        rw [← h4.1, hi, hl]; simp [vals]
      · refine ⟨.int a :: .range :: .int b :: ts', .between a b :: is, by rw [hs, e, ← h4.2]; rfl, .consRange a b hI, ?_⟩
        rw [← h4.1, hi, hl]; simp [vals]
    · simp only [Option.some.injEq, Prod.mk.injEq] at h2
      rcases hs with ⟨a, rfl, hs⟩ | ⟨a, b, rfl, hs⟩
      · exact ⟨[.int a], [.one a], by rw [hs, h2.2]; rfl, .one a, by rw [← h2.1, hi]; simp [vals]⟩
      · exact ⟨[.int a, .range, .int b], [.between a b], by rw [hs, h2.2]; rfl, .range a b, by rw [← h2.1, hi]; simp [vals]⟩

theorem items_start {ts : List Tok} {l : List Item} (h : Items ts l) (us : List Tok) : ∃ a rest, ts ++ us = .int a :: rest := by
  cases h <;> exact ⟨_, _, rfl⟩

theorem items_length {ts : List Tok} {l : List Item} (h : Items ts l) : 1 ≤ ts.length := by
  cases h <;> simp

theorem setItem_one (a : Nat) (us : List Tok) (hn : ∀ rest, us ≠ .range :: rest) : setItem (.int a :: us) = some ([(a : Int)], us) := by
  unfold setItem
  split
  · rename_i h
    simp only [List.cons.injEq] at h
    exact absurd h.2 (hn _)
  · rename_i h
    simp only [List.cons.injEq] at h
    exact absurd h.2 (hn _)
  · rename_i h
    simp only [List.cons.injEq, Tok.int.injEq] at h
    rw [h.1, h.2]
  · rename_i h
    exact absurd rfl (h _ _)

theorem setItems_complete {ts : List Tok} {l : List Item} (h : Items ts l) : ∀ (us : List Tok) (n : Nat), ts.length ≤ n →
    setItems n (ts ++ .cclose :: us) = some (vals l, .cclose :: us) := by
  induction h with
  | one a =>
    intro us n hn
    obtain ⟨n, rfl⟩ : ∃ m, n = m + 1 := ⟨n - 1, by simp at hn; omega⟩
    rw [setItems]
    simp only [List.cons_append, List.nil_append, setItem_one a (.cclose :: us) (by simp), bind, Option.bind_some]
    simp [vals, Item.vals]
  | range a b =>
    intro us n hn
    obtain ⟨n, rfl⟩ : ∃ m, n = m + 1 := ⟨n - 1, by simp at hn; omega⟩
    rw [setItems]
    simp [setItem, vals, Item.vals]
  | consOne a hI ih =>
    intro us n hn
    rename_i ts is
    obtain ⟨n, rfl⟩ : ∃ m, n = m + 1 := ⟨n - 1, by simp at hn; omega⟩
    obtain ⟨b, rest, e⟩ := items_start hI (.cclose :: us)
    rw [setItems, List.cons_append, setItem_one a _ (by rw [e]; simp)]
    have := ih us n (by simpa using hn)
    rw [e] at this
    simp only [bind, Option.bind_some, e, this]
    simp [vals, Item.vals]
  | consRange a b hI ih =>
    intro us n hn
    rename_i ts is
    obtain ⟨n, rfl⟩ : ∃ m, n = m + 1 := ⟨n - 1, by simp at hn; omega⟩
    obtain ⟨c, rest, e⟩ := items_start hI (.cclose :: us)
    rw [setItems]
    have := ih us n (by simp at hn; omega)
    rw [e] at this
    simp only [List.cons_append, setItem, bind, Option.bind_some, e, this]
    simp [vals, Item.vals]

/-! ## What the parser accepts is written -/

theorem quantifier_sound {r : Reg} {e : Re} {lo hi : Int} {ts₀ ts us : List Tok} {q : Reg} (hw : Written .atom ts₀ e) (he : act lo hi e = some r)
    (h : quantifier r ts = some (q, us)) : ∃ ts' e', ts₀ ++ ts = ts' ++ us ∧ Written .factor ts' e' ∧ act lo hi e' = some q := by
  unfold quantifier at h
  split at h
  all_goals simp only [Option.some.injEq, Prod.mk.injEq, reduceCtorEq] at h
  · obtain ⟨rfl, rfl⟩ := h; exact ⟨ts₀ ++ [.star], _, by simp, .star hw, by simp [act, he]⟩
  · obtain ⟨rfl, rfl⟩ := h; exact ⟨ts₀ ++ [.plus], _, by simp, .plus hw, by simp [act, he]⟩
  · obtain ⟨rfl, rfl⟩ := h; exact ⟨ts₀ ++ [.opt], _, by simp, .optional hw, by simp [act, he]⟩
  · rename_i n _; obtain ⟨rfl, rfl⟩ := h; exact ⟨ts₀ ++ [.qopen, .int n, .qclose], _, by simp, .exact n hw, by simp [act, he]⟩
  · rename_i n _; obtain ⟨rfl, rfl⟩ := h; exact ⟨ts₀ ++ [.qopen, .int n, .comma, .qclose], _, by simp, .atLeast n hw, by simp [act, he]⟩
  · rename_i n m _; obtain ⟨rfl, rfl⟩ := h
    exact ⟨ts₀ ++ [.qopen, .int n, .comma, .int m, .qclose], _, by simp, .between n m hw, by simp [act, he]⟩
  · obtain ⟨rfl, rfl⟩ := h; exact ⟨ts₀, e, by simp, .plain hw, he⟩

theorem parser_sound (lo hi : Int) : ∀ n : Nat,
    (∀ ts us r, atom lo hi n ts = some (r, us) → ∃ ts' e, ts = ts' ++ us ∧ Written .atom ts' e ∧ act lo hi e = some r) ∧
    (∀ ts us r, term lo hi n ts = some (r, us) → ∃ ts' e, ts = ts' ++ us ∧ Written .term ts' e ∧ act lo hi e = some r) ∧
    (∀ ts us r, expression lo hi n ts = some (r, us) → ∃ ts' e, ts = ts' ++ us ∧ Written .expr ts' e ∧ act lo hi e = some r) := by
  intro n
  induction n with
  | zero => exact ⟨fun ts us r h => by simp [atom] at h, fun ts us r h => by simp [term] at h, fun ts us r h => by simp [expression] at h⟩
  | succ n ih =>
    obtain ⟨ihA, ihT, ihE⟩ := ih
    refine ⟨?_, ?_, ?_⟩
    · intro ts us r h
      unfold atom at h
      dsimp only at h
      split at h
      · rename_i a ts
        simp only [Option.some.injEq, Prod.mk.injEq] at h
        exact ⟨[.int a], .num a, by rw [h.2]; rfl, .num a, by rw [← h.1]; rfl⟩
      · simp only [bind, Option.bind_eq_some_iff, Option.some.injEq, Prod.mk.injEq] at h
        obtain ⟨r', h1, h2, h3⟩ := h
        exact ⟨[.any], .any, by rw [h3]; rfl, .any, by rw [← h2]; exact h1⟩
      · simp only [bind, Option.bind_eq_some_iff] at h
        obtain ⟨⟨l, vs⟩, h1, h2⟩ := h
        dsimp only at h2
        split at h2
        · simp only [Option.bind_eq_some_iff, Option.some.injEq, Prod.mk.injEq] at h2
          obtain ⟨r', h2, h3, h4⟩ := h2
          obtain ⟨ts', is, e, hI, hl⟩ := setItems_sound _ h1
          refine ⟨.copen :: .neg :: (ts' ++ [.cclose]), .notCls is, by rw [e, ← h4]; simp, .notCls hI, ?_⟩
          rw [← h3, act, ← hl, h2]
        · simp at h2
      · simp only [bind, Option.bind_eq_some_iff] at h
        obtain ⟨⟨l, vs⟩, h1, h2⟩ := h
        dsimp only at h2
        split at h2
        · simp only [Option.bind_eq_some_iff, Option.some.injEq, Prod.mk.injEq] at h2
          obtain ⟨r', h2, h3, h4⟩ := h2
          obtain ⟨ts', is, e, hI, hl⟩ := setItems_sound _ h1
          refine ⟨.copen :: (ts' ++ [.cclose]), .cls is, by rw [e, ← h4]; simp, .cls hI, ?_⟩
          rw [← h3, act, ← hl, h2]
        · simp at h2
      · simp only [bind, Option.bind_eq_some_iff] at h
        obtain ⟨⟨r', vs⟩, h1, h2⟩ := h
        dsimp only at h2
        split at h2
        · simp only [Option.some.injEq, Prod.mk.injEq] at h2
          obtain ⟨ts', e, he, hw, ha⟩ := ihE _ _ _ h1
          exact ⟨.gopen :: (ts' ++ [.gclose]), e, by rw [he, ← h2.2]; simp, .group hw, by rw [ha, h2.1]⟩
        · simp at h2
      · simp at h
    · intro ts us r h
      rw [term] at h
      simp only [bind, Option.bind_eq_some_iff] at h
      obtain ⟨⟨r₁, vs⟩, h1, ⟨f, ws⟩, h2, h3⟩ := h
      obtain ⟨t₁, e₁, he₁, hw₁, ha₁⟩ := ihA _ _ _ h1
      obtain ⟨t₂, e₂, he₂, hw₂, ha₂⟩ := quantifier_sound hw₁ ha₁ h2
      dsimp only at h3
      split at h3
      · simp only [Option.bind_eq_some_iff, Option.some.injEq, Prod.mk.injEq] at h3
        obtain ⟨⟨t, xs⟩, h3, h4, h5⟩ := h3
        obtain ⟨t₃, e₃, he₃, hw₃, ha₃⟩ := ihT _ _ _ h3
        refine ⟨t₂ ++ t₃, .cat e₂ e₃, by rw [he₁, he₂, he₃, ← h5]; simp, .cat hw₂ hw₃, ?_⟩
        simp [act, ha₂, ha₃, ← h4]
      · simp only [Option.some.injEq, Prod.mk.injEq] at h3
        exact ⟨t₂, e₂, by rw [he₁, he₂, h3.2], .last hw₂, by rw [ha₂, h3.1]⟩
    · intro ts us r h
      rw [expression] at h
      simp only [bind, Option.bind_eq_some_iff] at h
      obtain ⟨⟨t, vs⟩, h1, h2⟩ := h
      obtain ⟨t₁, e₁, he₁, hw₁, ha₁⟩ := ihT _ _ _ h1
      dsimp only at h2
      split at h2
      · simp only [Option.bind_eq_some_iff, Option.some.injEq, Prod.mk.injEq] at h2
        obtain ⟨⟨t', xs⟩, h3, h4, h5⟩ := h2
        obtain ⟨t₃, e₃, he₃, hw₃, ha₃⟩ := ihE _ _ _ h3
        refine ⟨t₁ ++ .union :: t₃, .alt e₁ e₃, by rw [he₁, he₃, ← h5]; simp, .alt hw₁ hw₃, ?_⟩
        simp [act, ha₁, ha₃, ← h4]
      · simp only [Option.some.injEq, Prod.mk.injEq] at h2
        exact ⟨t₁, e₁, by rw [he₁, h2.2], .only hw₁, by rw [ha₁, h2.1]⟩

/-! ## What is written is accepted by the parser -/

/-- Tokens that begin a quantifier. -/
def startsQuant : List Tok → Bool
  | .star :: _ => true
  | .plus :: _ => true
  | .opt :: _ => true
  | .qopen :: _ => true
  | _ => false

theorem quantifier_none (r : Reg) (us : List Tok) (h : startsQuant us = false) : quantifier r us = some (r, us) := by
  unfold quantifier
  split <;> simp_all [startsQuant]

theorem written_starts {k : Kind} {ts : List Tok} {e : Re} (h : Written k ts e) : ∀ us, startsAtom (ts ++ us) = true := by
  induction h <;> intro us <;> simp_all [startsAtom]

theorem atom_not_quant (us : List Tok) (h : startsAtom us = true) : startsQuant us = false := by
  unfold startsAtom at h
  unfold startsQuant
  split at h <;> simp_all

/-- What the parser does with a text of a kind. -/
def Accepted (lo hi : Int) (r : Reg) (ts : List Tok) : Kind → Prop
  | .atom => ∀ n us, 3 * ts.length + 1 ≤ n → atom lo hi n (ts ++ us) = some (r, us)
  | .factor => ∀ n us, startsQuant us = false → 3 * ts.length + 1 ≤ n →
      ∃ q vs, atom lo hi n (ts ++ us) = some (q, vs) ∧ quantifier q vs = some (r, us)
  | .term => ∀ n us, startsQuant us = false → startsAtom us = false → 3 * ts.length + 2 ≤ n → term lo hi n (ts ++ us) = some (r, us)
  | .expr => ∀ n us, startsQuant us = false → startsAtom us = false → (∀ vs, us ≠ .union :: vs) → 3 * ts.length + 3 ≤ n →
      expression lo hi n (ts ++ us) = some (r, us)

theorem parser_complete (lo hi : Int) {k : Kind} {ts : List Tok} {e : Re} (h : Written k ts e) : ∀ r, act lo hi e = some r →
    Accepted lo hi r ts k := by
  induction h with
  | num a =>
    intro r hr n us hn
    obtain ⟨n, rfl⟩ : ∃ m, n = m + 1 := ⟨n - 1, by omega⟩
    simp only [act, Option.some.injEq] at hr
    simp [atom, hr]
  | any =>
    intro r hr n us hn
    obtain ⟨n, rfl⟩ : ∃ m, n = m + 1 := ⟨n - 1, by omega⟩
    simp only [act] at hr
    simp [atom, hr]
  | cls hI =>
    intro r hr n us hn
    rename_i ts l
    obtain ⟨n, rfl⟩ : ∃ m, n = m + 1 := ⟨n - 1, by omega⟩
    simp only [act] at hr
    obtain ⟨a, rest, e⟩ := items_start hI (.cclose :: us)
    have hc := setItems_complete hI us (ts ++ .cclose :: us).length (by simp)
    rw [e] at hc
    simp only [List.cons_append, List.append_assoc, List.nil_append, e]
    rw [atom]
    · simp only [hc, bind, Option.bind_some, hr]
    · intro ts h; simp at h
  | notCls hI =>
    intro r hr n us hn
    rename_i ts l
    obtain ⟨n, rfl⟩ : ∃ m, n = m + 1 := ⟨n - 1, by omega⟩
    simp only [act] at hr
    have hc := setItems_complete hI us (ts ++ .cclose :: us).length (by simp)
    simp only [List.cons_append, List.append_assoc, List.nil_append]
    rw [atom]
    simp only [hc, bind, Option.bind_some, hr]
  | group hw ih =>
    intro r hr n us hn
    obtain ⟨n, rfl⟩ : ∃ m, n = m + 1 := ⟨n - 1, by omega⟩
    have := ih r hr n (.gclose :: us) rfl rfl (by simp) (by simp at hn; omega)
    simp only [List.cons_append, List.append_assoc, List.nil_append]
    rw [atom]
    simp only [this, bind, Option.bind_some]
  | plain hw ih =>
    intro r hr n us hq hn
    exact ⟨r, us, ih r hr n us hn, quantifier_none r us hq⟩
  | star hw ih | plus hw ih | optional hw ih =>
    intro r hr n us hq hn
    simp only [act, bind, Option.bind_eq_some_iff, Option.some.injEq] at hr
    obtain ⟨r', hr', rfl⟩ := hr
    refine ⟨r', _, by rw [List.append_assoc]; exact ih r' hr' n _ (by simp at hn; omega), by simp [quantifier]⟩
  | exact m hw ih | atLeast m hw ih =>
    intro r hr n us hq hn
    simp only [act, bind, Option.bind_eq_some_iff, Option.some.injEq] at hr
    obtain ⟨r', hr', rfl⟩ := hr
    refine ⟨r', _, by rw [List.append_assoc]; exact ih r' hr' n _ (by simp at hn; omega), by simp [quantifier]⟩
  | between m m' hw ih =>
    intro r hr n us hq hn
    simp only [act, bind, Option.bind_eq_some_iff, Option.some.injEq] at hr
    obtain ⟨r', hr', rfl⟩ := hr
    refine ⟨r', _, by rw [List.append_assoc]; exact ih r' hr' n _ (by simp at hn; omega), by simp [quantifier]⟩
  | last hw ih =>
    intro r hr n us hq ha hn
    obtain ⟨n, rfl⟩ : ∃ m, n = m + 1 := ⟨n - 1, by omega⟩
    obtain ⟨q, vs, h1, h2⟩ := ih r hr n us hq (by omega)
    rw [term]
    simp [h1, h2, ha]
  | cat hw hw' ih ih' =>
    intro r hr n us hq ha hn
    rename_i ts r₁ us' s₁
    obtain ⟨n, rfl⟩ : ∃ m, n = m + 1 := ⟨n - 1, by omega⟩
    simp only [act, bind, Option.bind_eq_some_iff, Option.some.injEq] at hr
    obtain ⟨a, ha₁, b, hb₁, rfl⟩ := hr
    have hs := written_starts hw' us
    have hne : 1 ≤ ts.length := by
      have := written_starts hw []
      cases ts with
      | nil => simp [startsAtom] at this
      | cons _ _ => simp
    obtain ⟨q, vs, h1, h2⟩ := ih a ha₁ n (us' ++ us) (atom_not_quant _ hs) (by simp at hn; omega)
    have h3 := ih' b hb₁ n us hq ha (by simp at hn; omega)
    rw [term, List.append_assoc]
    simp [h1, h2, hs, h3]
  | only hw ih =>
    intro r hr n us hq ha hu hn
    obtain ⟨n, rfl⟩ : ∃ m, n = m + 1 := ⟨n - 1, by omega⟩
    have h1 := ih r hr n us hq ha (by omega)
    rw [expression]
    simp only [h1, bind, Option.bind_some]
  | alt hw hw' ih ih' =>
    intro r hr n us hq ha hu hn
    rename_i ts r₁ us' s₁
    obtain ⟨n, rfl⟩ : ∃ m, n = m + 1 := ⟨n - 1, by omega⟩
    simp only [act, bind, Option.bind_eq_some_iff, Option.some.injEq] at hr
    obtain ⟨a, ha₁, b, hb₁, rfl⟩ := hr
    have h1 := ih a ha₁ n (.union :: (us' ++ us)) rfl rfl (by simp at hn; omega)
    have h3 := ih' b hb₁ n us hq ha hu (by simp at hn; omega)
    rw [expression, List.append_assoc, List.cons_append]
    simp [h1, h3]

/-- The parser. -/
theorem parse_iff (lo hi : Int) (ts : List Tok) (r : Reg) : parse lo hi ts = some r ↔ ∃ e, Written .expr ts e ∧ act lo hi e = some r := by
  unfold parse
  constructor
  · intro h
    simp only [bind, Option.bind_eq_some_iff] at h
    obtain ⟨⟨r', us⟩, h1, h2⟩ := h
    obtain ⟨ts', e, he, hw, ha⟩ := (parser_sound lo hi _).2.2 _ _ _ h1
    split at h2
    · rename_i heq
      simp only [Prod.mk.injEq] at heq
      simp only [Option.some.injEq] at h2
      rw [heq.2, List.append_nil] at he
      exact ⟨e, he ▸ hw, by rw [ha, heq.1, h2]⟩
    · simp at h2
  · rintro ⟨e, hw, ha⟩
    have := parser_complete lo hi hw r ha (3 * ts.length + 3) [] rfl rfl (by simp) (le_refl _)
    rw [List.append_nil] at this
    rw [this]; rfl

end Regex
end MZ
