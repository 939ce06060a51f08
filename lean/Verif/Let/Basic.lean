import Verif.Let.Spec
import Mathlib.Tactic.ByContra
/-!
# Flat models that grow
-/
namespace MZ
namespace Let
open BoolFlat (BCtx Cmp)

/-- A flat expression uses only the first `n` variables. -/
def Atom.Lt (n : Nat) : Atom → Prop
  | .lit _ => True
  | .var k => k < n

/-- Likewise for definitions. -/
def Def.Lt (n : Nat) : Def → Prop
  | .glob => True
  | .free _ => True
  | .add a b => a.Lt n ∧ b.Lt n
  | .div a b => a.Lt n ∧ b.Lt n
  | .ne0 a => a.Lt n
  | .mem a _ => a.Lt n
  | .cmp _ a b => a.Lt n ∧ b.Lt n
  | .conj _ cs => ∀ a ∈ cs, a.Lt n
  | .disj cs => ∀ a ∈ cs, a.Lt n
  | .iff _ a b => a.Lt n ∧ b.Lt n

theorem Atom.Lt.mono {n m : Nat} {a : Atom} (h : a.Lt n) (hm : n ≤ m) : a.Lt m := by
  cases a with
  | lit v => trivial
  | var k => exact Nat.lt_of_lt_of_le h hm

theorem Def.Lt.mono {n m : Nat} {d : Def} (h : d.Lt n) (hm : n ≤ m) : d.Lt m := by
  cases d <;> simp only [Def.Lt] at h ⊢
  case add => exact ⟨h.1.mono hm, h.2.mono hm⟩
  case div => exact ⟨h.1.mono hm, h.2.mono hm⟩
  case ne0 => exact h.mono hm
  case mem => exact h.mono hm
  case cmp => exact ⟨h.1.mono hm, h.2.mono hm⟩
  case conj => exact fun a ha => (h a ha).mono hm
  case disj => exact fun a ha => (h a ha).mono hm
  case iff => exact ⟨h.1.mono hm, h.2.mono hm⟩

/-- The same values of the first `n` variables. -/
def Agree (n : Nat) (σ σ' : Nat → Int) : Prop := ∀ k < n, σ' k = σ k

theorem Agree.refl (n : Nat) (σ : Nat → Int) : Agree n σ σ := fun _ _ => rfl

theorem Agree.trans {n m : Nat} {σ σ' σ'' : Nat → Int} (h : Agree n σ σ') (h' : Agree m σ' σ'') (hm : n ≤ m) : Agree n σ σ'' :=
  fun k hk => (h' k (Nat.lt_of_lt_of_le hk hm)).trans (h k hk)

theorem Atom.val_agree {n : Nat} {σ σ' : Nat → Int} (h : Agree n σ σ') {a : Atom} (ha : a.Lt n) : a.val σ' = a.val σ := by
  cases a with
  | lit v => rfl
  | var k => exact h k ha

theorem Atom.tr_agree {n : Nat} {σ σ' : Nat → Int} (h : Agree n σ σ') {a : Atom} (ha : a.Lt n) : a.tr σ' ↔ a.tr σ := by
  unfold Atom.tr; rw [Atom.val_agree h ha]

/-- The truth value of a definition whose value is 0 or 1. -/
def Def.Prop? (σ : Nat → Int) : Def → Option Prop
  | .glob => none
  | .free _ => none
  | .add _ _ => none
  | .div _ _ => none
  | .ne0 a => some (a.val σ ≠ 0)
  | .mem a d => some (a.val σ ∈ d)
  | .cmp o a b => some (o.holds (a.val σ) (b.val σ) = true)
  | .conj neg cs => some ((∀ a ∈ cs, a.tr σ) ↔ neg = false)
  | .disj cs => some (∃ a ∈ cs, a.tr σ)
  | .iff neg a b => some ((a.tr σ ↔ b.tr σ) ↔ neg = false)

theorem Def.holds_iff {σ : Nat → Int} {d : Def} {P : Prop} (h : d.Prop? σ = some P) (v : Int) :
    d.Holds σ v ↔ (v = 1 ∧ P) ∨ (v = 0 ∧ ¬ P) := by
  cases d <;> simp only [Def.Prop?, Option.some.injEq, reduceCtorEq] at h <;> subst h <;> simp only [Def.Holds] <;> split <;> simp_all

theorem Def.holds_agree {n : Nat} {σ σ' : Nat → Int} (h : Agree n σ σ') {d : Def} (hd : d.Lt n) (v : Int) : d.Holds σ' v ↔ d.Holds σ v := by
  cases d <;> simp only [Def.Lt] at hd
  case glob => exact Iff.rfl
  case free => exact Iff.rfl
  case add => simp only [Def.Holds]; rw [Atom.val_agree h hd.1, Atom.val_agree h hd.2]
  case div => simp only [Def.Holds]; rw [Atom.val_agree h hd.1, Atom.val_agree h hd.2]
  case ne0 => simp only [Def.Holds]; rw [Atom.val_agree h hd]
  case mem => simp only [Def.Holds]; rw [Atom.val_agree h hd]
  case cmp => simp only [Def.Holds]; rw [Atom.val_agree h hd.1, Atom.val_agree h hd.2]
  case conj cs =>
    have : (∀ a ∈ cs, a.tr σ') ↔ (∀ a ∈ cs, a.tr σ) :=
      ⟨fun g a ha => (Atom.tr_agree h (hd a ha)).mp (g a ha), fun g a ha => (Atom.tr_agree h (hd a ha)).mpr (g a ha)⟩
    rw [Def.holds_iff rfl, Def.holds_iff rfl, this]
  case disj cs =>
    have : (∃ a ∈ cs, a.tr σ') ↔ (∃ a ∈ cs, a.tr σ) :=
      ⟨fun ⟨a, ha, g⟩ => ⟨a, ha, (Atom.tr_agree h (hd a ha)).mp g⟩, fun ⟨a, ha, g⟩ => ⟨a, ha, (Atom.tr_agree h (hd a ha)).mpr g⟩⟩
    rw [Def.holds_iff rfl, Def.holds_iff rfl, this]
  case iff =>
    have h1 := Atom.tr_agree h hd.1
    have h2 := Atom.tr_agree h hd.2
    rw [Def.holds_iff rfl, Def.holds_iff rfl, h1, h2]

/-- Only variables that exist are used. -/
structure WF (st : St) : Prop where
  decls : ∀ (k : Nat) (d : Def), st.decls[k]? = some d → d.Lt st.decls.length
  cons : ∀ a ∈ st.cons, a.Lt st.decls.length
  fl : ∀ x, (st.fl x).Lt st.decls.length

/-- The flat model has grown. -/
structure Grow (st st' : St) : Prop where
  decls : st.decls <+: st'.decls
  cons : ∀ a ∈ st.cons, a ∈ st'.cons
  wf0 : WF st
  wf : WF st'

theorem Grow.len {st st' : St} (h : Grow st st') : st.decls.length ≤ st'.decls.length := h.decls.length_le

theorem Grow.trans {a b c : St} (h : Grow a b) (h' : Grow b c) : Grow a c :=
  ⟨h.decls.trans h'.decls, fun x hx => h'.cons x (h.cons x hx), h.wf0, h'.wf⟩

theorem Grow.refl {a : St} (h : WF a) : Grow a a := ⟨List.prefix_rfl, fun _ h => h, h, h⟩

theorem Grow.ok {st st' : St} (h : Grow st st') {σ : Nat → Int} (ho : Ok σ st') : Ok σ st := by
  refine ⟨fun k d hk => ho.1 k d ?_, fun a ha => ho.2 a (h.cons a ha)⟩
  obtain ⟨t, ht⟩ := h.decls
  rw [← ht, List.getElem?_append_left (List.getElem?_eq_some_iff.mp hk).1]
  exact hk

/-- The values of the declarations are those of their flat variables. -/
def Env (st : St) (σ : Nat → Int) (ρ : Nat → Int) : Prop := ∀ x, (st.fl x).val σ = ρ x

theorem Env.agree {st : St} {σ σ' ρ : Nat → Int} (h : Env st σ ρ) (hw : WF st) (ha : Agree st.decls.length σ σ') : Env st σ' ρ :=
  fun x => (Atom.val_agree ha (hw.fl x)).trans (h x)

theorem Env.fl {st st' : St} {σ ρ : Nat → Int} (h : Env st σ ρ) (hf : st'.fl = st.fl) : Env st' σ ρ := by
  intro x; rw [hf]; exact h x

theorem wf_mk {st : St} (h : WF st) {d : Def} (hd : d.Lt st.decls.length) : Grow st (mk st d).1 ∧ (mk st d).2.Lt (mk st d).1.decls.length := by
  have hl : (mk st d).1.decls.length = st.decls.length + 1 := by simp [mk]
  refine ⟨⟨List.prefix_append _ _, fun _ h => h, h, ?_, ?_, ?_⟩, ?_⟩
  · intro k d' hk
    rw [hl]
    simp only [mk] at hk
    rcases Nat.lt_trichotomy k st.decls.length with h1 | h1 | h1
    · rw [List.getElem?_append_left h1] at hk
      exact (h.decls k d' hk).mono (by omega)
    · subst h1; simp at hk; subst hk; exact hd.mono (by omega)
    · rw [List.getElem?_eq_none (by simp; omega)] at hk; cases hk
  · intro a ha; rw [hl]; exact (h.cons a ha).mono (by omega)
  · intro x; rw [hl]; exact (h.fl x).mono (by omega)
  · simp only [mk, Atom.Lt, List.length_append, List.length_singleton]; omega

theorem ok_mk {st : St} (h : WF st) {d : Def} (hd : d.Lt st.decls.length) {σ : Nat → Int} (ho : Ok σ st) {v : Int} (hv : d.Holds σ v) :
    ∃ σ', Agree st.decls.length σ σ' ∧ Ok σ' (mk st d).1 ∧ (mk st d).2.val σ' = v := by
  let σ' : Nat → Int := fun k => if k = st.decls.length then v else σ k
  have ha : Agree st.decls.length σ σ' := by
    intro k hk
    simp only [σ']
    rw [if_neg (by omega)]
  have hn : σ' st.decls.length = v := by simp [σ']
  refine ⟨σ', ha, ⟨?_, ?_⟩, ?_⟩
  · intro k d' hk
    simp only [mk] at hk
    rcases Nat.lt_trichotomy k st.decls.length with h1 | h1 | h1
    · rw [List.getElem?_append_left h1] at hk
      rw [Def.holds_agree ha (h.decls k d' hk), ha k h1]
      exact ho.1 k d' hk
    · subst h1
      simp at hk
      subst hk
      rw [Def.holds_agree ha hd, hn]
      exact hv
    · rw [List.getElem?_eq_none (by simp; omega)] at hk; cases hk
  · intro a hac
    exact (Atom.tr_agree ha (h.cons a hac)).mpr (ho.2 a hac)
  · exact hn

theorem holds_mk {st : St} {d : Def} {σ : Nat → Int} (ho : Ok σ (mk st d).1) : d.Holds σ ((mk st d).2.val σ) := by
  refine ho.1 st.decls.length d ?_
  simp [mk]

theorem Def.tr_iff {σ : Nat → Int} {d : Def} {P : Prop} (h : d.Prop? σ = some P) {a : Atom} (hv : d.Holds σ (a.val σ)) :
    (a.tr σ ↔ P) ∧ (a.val σ = 0 ∨ a.val σ = 1) := by
  rcases (Def.holds_iff h _).mp hv with ⟨h1, h2⟩ | ⟨h1, h2⟩ <;> simp [Atom.tr, h1, h2]

/-! ## Results bound to a new variable or to `varTrue` -/

theorem wf_post {st : St} (h : WF st) {a : Atom} (ha : a.Lt st.decls.length) : Grow st (post st a) := by
  refine ⟨List.prefix_rfl, fun b hb => List.mem_append_left _ hb, h, h.decls, ?_, h.fl⟩
  intro b hb
  rcases List.mem_append.mp hb with hb | hb
  · exact h.cons b hb
  · rw [List.mem_singleton.mp hb]; exact ha

/-- What `out` does with a definition that is true or false. -/
theorem out_spec {st : St} (h : WF st) {d : Def} (hd : d.Lt st.decls.length) (tru : Bool) (P : (Nat → Int) → Prop)
    (hP : ∀ σ, d.Prop? σ = some (P σ)) :
    Grow st (out tru st d).1 ∧ (out tru st d).1.fl = st.fl ∧ (out tru st d).2.Lt (out tru st d).1.decls.length ∧
    (tru = true → (out tru st d).2 = .lit 1) ∧
    (∀ σ, Ok σ (out tru st d).1 → ((out tru st d).2.tr σ ↔ P σ) ∧ ((out tru st d).2.val σ = 0 ∨ (out tru st d).2.val σ = 1)) ∧
    (∀ σ, Ok σ st → (tru = true → P σ) → ∃ σ', Agree st.decls.length σ σ' ∧ Ok σ' (out tru st d).1) := by
  obtain ⟨g1, g2⟩ := wf_mk h hd
  cases tru with
  | false =>
    simp only [out, Bool.false_eq_true, if_false]
    refine ⟨g1, rfl, g2, by simp, fun σ ho => Def.tr_iff (hP σ) (holds_mk ho), fun σ ho _ => ?_⟩
    by_cases hp : P σ
    · obtain ⟨σ', k1, k2, _⟩ := ok_mk h hd ho ((Def.holds_iff (hP σ) 1).mpr (Or.inl ⟨rfl, hp⟩))
      exact ⟨σ', k1, k2⟩
    · obtain ⟨σ', k1, k2, _⟩ := ok_mk h hd ho ((Def.holds_iff (hP σ) 0).mpr (Or.inr ⟨rfl, hp⟩))
      exact ⟨σ', k1, k2⟩
  | true =>
    simp only [out, if_true]
    have g3 := wf_post g1.wf g2
    refine ⟨g1.trans g3, rfl, trivial, fun _ => trivial, fun σ ho => ?_, fun σ ho hp => ?_⟩
    · have h1 := (Def.tr_iff (hP σ) (holds_mk (g3.ok ho))).1
      have h2 : (mk st d).2.tr σ := ho.2 _ (by simp [post])
      exact ⟨⟨fun _ => h1.mp h2, fun _ => by simp [Atom.tr, Atom.val]⟩, Or.inr rfl⟩
    · obtain ⟨σ', k1, k2, k3⟩ := ok_mk h hd ho ((Def.holds_iff (hP σ) 1).mpr (Or.inl ⟨rfl, hp trivial⟩))
      refine ⟨σ', k1, k2.1, ?_⟩
      intro a ha
      rcases List.mem_append.mp ha with ha | ha
      · exact k2.2 a ha
      · rw [List.mem_singleton.mp ha]; simp [Atom.tr, k3]

theorem setFl_grow {st st' : St} (h : Grow st st') (x : Nat) {a : Atom} (ha : a.Lt st'.decls.length) : Grow st (setFl st' x a) := by
  refine ⟨h.decls, h.cons, h.wf0, h.wf.decls, h.wf.cons, ?_⟩
  intro y
  simp only [setFl]
  split
  · exact ha
  · exact h.wf.fl y

theorem setFl_ok {st : St} {x : Nat} {a : Atom} {σ : Nat → Int} : Ok σ (setFl st x a) ↔ Ok σ st := Iff.rfl

theorem setFl_env {st : St} {x : Nat} {a : Atom} {σ ρ : Nat → Int} (h : Env st σ ρ) : Env (setFl st x a) σ (upd ρ x (a.val σ)) := by
  intro y
  simp only [setFl, upd]
  split
  · rfl
  · exact h y

theorem restore_decls : ∀ (sv : List (Nat × Atom)) (st : St), (restore st sv).decls = st.decls ∧ (restore st sv).cons = st.cons
  | [], _ => ⟨rfl, rfl⟩
  | (x, a) :: r, st => restore_decls r (setFl st x a)

theorem restore_ok (sv : List (Nat × Atom)) (st : St) (σ : Nat → Int) : Ok σ (restore st sv) ↔ Ok σ st := by
  unfold Ok
  rw [(restore_decls sv st).1, (restore_decls sv st).2]

theorem restore_not_mem : ∀ (sv : List (Nat × Atom)) (st : St) (y : Nat), y ∉ sv.map (·.1) → (restore st sv).fl y = st.fl y
  | [], _, _, _ => rfl
  | (x, a) :: r, st, y, h => by
    simp only [List.map_cons, List.mem_cons, not_or] at h
    rw [restore, restore_not_mem r _ y h.2]
    simp [setFl, h.1]

theorem restore_mem : ∀ (sv : List (Nat × Atom)) (st : St), (sv.map (·.1)).Nodup → ∀ x a, (x, a) ∈ sv → (restore st sv).fl x = a
  | (y, b) :: r, st, hn, x, a, h => by
    simp only [List.map_cons, List.nodup_cons] at hn
    rcases List.mem_cons.mp h with e | h
    · cases e
      rw [restore, restore_not_mem r _ _ hn.1]
      simp [setFl]
    · rw [restore]; exact restore_mem r _ hn.2 x a h

end Let
end MZ
