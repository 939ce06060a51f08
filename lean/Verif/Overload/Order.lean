import Verif.Overload.Model
import Verif.Types.Enc
import Mathlib.Data.List.Perm.Basic
import Mathlib.Data.List.Sort
import Mathlib.Order.Defs.LinearOrder
/-!
# The order of the overload table
-/
namespace MZ
namespace Overload
open Types

/-- Types that occur in the table, without tuples, records and `any`: base types and type-inst variables. -/
structure Sig (t : Ty) : Prop where
  base : Base5 t ∨ t.bt = .top
  any : t.any = false
  wf : t.Wf

/-- The parts of a type apart from the dimensions and the type id, most significant first. -/
def pre (t : Ty) : Nat := (1 - b2n t.set) * 64 + t.bt.num * 4 + b2n t.var * 2 + b2n t.opt

/-- Scalars first, then arrays by the number of dimensions, then arrays of any dimension. -/
def dimRank (d : Int) : Nat := if d = -1 then 8 else d.toNat

def key (t : Ty) : Nat := pre t * 16 + dimRank t.dim

def dimCode (d : Int) : Int := if d = -1 then 1 else if d = 0 then 0 else d + 1

theorem toInt_pre (t : Ty) : toInt t = pre t * 2 ^ 20 + t.typeId * 2 ^ 4 + dimCode t.dim := by
  rw [toInt_eq, pre, dimCode]
  push_cast
  ring

theorem dimCode_range {d : Int} (h : -1 ≤ d) (h' : d < 7) : 0 ≤ dimCode d ∧ dimCode d < 8 := by
  unfold dimCode; split
  · omega
  · split <;> omega

theorem dimRank_lt {d : Int} (h' : d < 7) : dimRank d < 16 := by
  unfold dimRank; split <;> omega

theorem dimRank_inj {d e : Int} (h : -1 ≤ d) (h' : d < 7) (g : -1 ≤ e) (g' : e < 7) (he : dimRank d = dimRank e) : d = e := by
  unfold dimRank at he
  split at he <;> split at he <;> omega

theorem pre_inj {a b : Ty} (h : pre a = pre b) : a.set = b.set ∧ a.bt = b.bt ∧ a.var = b.var ∧ a.opt = b.opt := by
  have x1 := BT.num_lt a.bt
  have x2 := BT.num_lt b.bt
  have y1 := b2n_le a.set
  have y2 := b2n_le b.set
  have y3 := b2n_le a.var
  have y4 := b2n_le b.var
  have y5 := b2n_le a.opt
  have y6 := b2n_le b.opt
  unfold pre at h
  refine ⟨b2n_inj ?_, BT.num_inj _ _ ?_, b2n_inj ?_, b2n_inj ?_⟩ <;> omega

theorem pre_congr {a b : Ty} (h1 : a.set = b.set) (h2 : a.bt = b.bt) (h3 : a.var = b.var) (h4 : a.opt = b.opt) : pre a = pre b := by
  unfold pre; rw [h1, h2, h3, h4]

theorem Sig.not_struct {t : Ty} (h : Sig t) : t.structBT = false := by
  unfold Ty.structBT
  rcases h.base with h | h
  · rcases h with h | h | h | h | h <;> rw [h] <;> rfl
  · rw [h]; rfl

theorem eq_key {a b : Ty} (ha : Sig a) (hb : Sig b) : a.eq b = true ↔ key a = key b := by
  have h1 := ha.not_struct
  obtain ⟨-, a2, a3⟩ := ha.wf
  obtain ⟨-, b2, b3⟩ := hb.wf
  have r1 := dimRank_lt a3
  have r2 := dimRank_lt b3
  constructor
  · intro h
    simp only [Ty.eq, h1, Bool.not_false, Bool.true_or, Bool.and_true, Bool.and_eq_true, beq_iff_eq] at h
    obtain ⟨⟨⟨⟨h1, h2⟩, h3⟩, h4⟩, h5⟩ := h
    unfold key
    rw [pre_congr h3 h2 h1 h4, h5]
  · intro h
    unfold key at h
    have hp : pre a = pre b := by omega
    have hd : dimRank a.dim = dimRank b.dim := by omega
    obtain ⟨g1, g2, g3, g4⟩ := pre_inj hp
    simp [Ty.eq, h1, g1, g2, g3, g4, dimRank_inj a2 a3 b2 b3 hd]

theorem btSub_num {s : Bool} {a b : Ty} (ha : Sig a) (h : btSub s a b = true) : a.bt.num ≤ b.bt.num := by
  unfold btSub at h
  split at h
  · rename_i g; rw [g.1]
  · split at h
    · rename_i g; rw [g.1]
    · rcases ha.base with g | g
      · rcases g with g | g | g | g | g <;> rw [g] at h ⊢ <;> simp at h
        · rcases h with h | h <;> rw [h] <;> decide
        · rw [h]; decide
      · rw [g] at h; simp at h

theorem pre_le_of {a b : Ty} (hs : b2n b.set ≤ b2n a.set) (hb : a.bt.num ≤ b.bt.num) (hv : a.var = true → b.var = true)
    (ho : a.opt = true → b.opt = true) : pre a ≤ pre b := by
  have y1 := b2n_le a.set
  have v : b2n a.var ≤ b2n b.var := by
    cases h : a.var
    · exact Nat.zero_le _
    · rw [hv h]
  have o : b2n a.opt ≤ b2n b.opt := by
    cases h : a.opt
    · exact Nat.zero_le _
    · rw [ho h]
  unfold pre
  omega

theorem isSub_pre {s : Bool} {a b : Ty} (ha : Sig a) (hb : Sig b) (h : isSub s a b = true) : pre a ≤ pre b := by
  have nbot : a.bt ≠ .bot := by rcases ha.base with g | g
                                · exact fun e => by rcases g with g | g | g | g | g <;> rw [g] at e <;> cases e
                                · rw [g]; decide
  have nbot' : b.bt ≠ .bot := by rcases hb.base with g | g
                                 · exact fun e => by rcases g with g | g | g | g | g <;> rw [g] at e <;> cases e
                                 · rw [g]; decide
  have top : b.bt = .top → a.bt.num ≤ b.bt.num := by
    intro e; rw [e]
    rcases ha.base with g | g
    · rcases g with g | g | g | g | g <;> rw [g] <;> decide
    · rw [g]
  unfold isSub at h
  split at h
  · rename_i g
    obtain ⟨-, -, g3, g4, -, g6, g7, g8⟩ := g
    refine pre_le_of (by rw [g3, g4]; decide) ?_ (by simp [g7]) ((optOk_iff _ _).1 g8)
    rcases g6 with g6 | g6 | g6
    · exact absurd g6 nbot
    · exact btSub_num ha g6
    · exact top g6
  · split at h
    · simp at h
    · rw [ha.any, hb.any] at h
      simp only [Bool.false_eq_true, if_false] at h
      split at h
      · rename_i g
        exact pre_le_of (by rw [g.2.2]) (btSub_num ha g.2.1) (fun e => g.1 ▸ e) ((optOk_iff _ _).1 h)
      · split at h
        · rename_i g
          exact pre_le_of (by rw [g.2.2]) (btSub_num ha g.2.1) (by simp [g.1]) ((optOk_iff _ _).1 h)
        · split at h
          · rename_i g; exact absurd g.2 nbot'
          · split at h
            · rename_i g; exact absurd g.2.1 nbot
            · simp only [Bool.and_eq_true, beq_iff_eq, Bool.or_eq_true, Bool.not_eq_true'] at h
              obtain ⟨⟨⟨h1, h2⟩, h3⟩, h4⟩ := h
              refine pre_le_of ?_ (top h1) (fun e => ?_) ((optOk_iff _ _).1 h2)
              · rcases h3 with h3 | h3
                · rw [h3]; exact Nat.zero_le _
                · rw [h3]
              · rcases h4 with h4 | h4
                · rw [h4] at e; cases e
                · exact h4

theorem isSub_dim {s : Bool} {a b : Ty} (hp : a.set = b.set) (h : isSub s a b = true) :
    a.dim = b.dim ∨ (a.dim ≠ 0 ∧ b.dim = -1) := by
  unfold isSub at h
  split at h
  · rename_i g
    rw [hp, g.2.2.2.1] at g
    simp at g
  · split at h
    · simp at h
    · rename_i g
      by_cases h1 : a.dim = b.dim
      · exact .inl h1
      · right
        push_neg at g
        exact g h1

theorem btSub_same {a b : Ty} (ha : Sig a) (h : a.bt = b.bt) (hd : a.dim ≠ 0) : btSub true a b = true := by
  have := ha.not_struct
  unfold btSub
  rw [if_neg (by simp [this]), if_pos ⟨h, .inr (.inl hd)⟩]

theorem isSub_any {a b : Ty} (ha : Sig a) (hb : Sig b) (hp : pre a = pre b) (h0 : a.dim ≠ 0) (h1 : b.dim = -1) :
    isSub true a b = true := by
  obtain ⟨g1, g2, g3, g4⟩ := pre_inj hp
  unfold isSub
  rw [if_neg (by simp [h0]), if_neg (by simp [h0, h1]), ha.any, hb.any]
  simp only [Bool.false_eq_true, if_false]
  rw [if_pos ⟨g3, btSub_same ha g2 h0, g1⟩]
  simp [optOk, g4]

theorem cmp_of_pre {a b : Ty} (ha : Sig a) (hb : Sig b) (h : pre a < pre b) : cmp a b = -1 ∧ cmp b a = 1 := by
  obtain ⟨a1, a2, a3⟩ := ha.wf
  obtain ⟨b1, b2, b3⟩ := hb.wf
  have d1 := dimCode_range a2 a3
  have d2 := dimCode_range b2 b3
  have : toInt a < toInt b := by
    rw [toInt_pre, toInt_pre]
    have : (pre a : Int) + 1 ≤ pre b := by exact_mod_cast h
    omega
  unfold Types.cmp
  constructor
  · rw [if_pos this]
  · rw [if_neg (by omega), if_pos (by omega)]

/-- Two parameter types at the same place of two overloads: if they differ in their dimensions only, neither contains an
enumeration. -/
def NoMixTy (a b : Ty) : Prop :=
  a.set = b.set → a.bt = b.bt → a.var = b.var → a.opt = b.opt → a.dim ≠ b.dim → a.typeId = 0 ∧ b.typeId = 0

theorem NoMixTy.symm {a b : Ty} (h : NoMixTy a b) : NoMixTy b a :=
  fun h1 h2 h3 h4 h5 => (h h1.symm h2.symm h3.symm h4.symm (Ne.symm h5)).symm

/-- What `compare` does at one parameter. -/
theorem step_iff {a b : Ty} (ha : Sig a) (hb : Sig b) (hm : NoMixTy a b) (hlt : key a < key b) :
    a.eq b = false ∧ b.eq a = false ∧
    (isSub true a b = true ∨ (isSub true b a = false ∧ cmp a b = -1)) ∧
    (isSub true b a = false ∧ (isSub true a b = true ∨ cmp b a = 1)) := by
  have e1 : a.eq b = false := by
    by_contra h
    have := (eq_key ha hb).1 (by simpa using h)
    omega
  have e2 : b.eq a = false := by
    by_contra h
    have := (eq_key hb ha).1 (by simpa using h)
    omega
  refine ⟨e1, e2, ?_⟩
  obtain ⟨a1, a2, a3⟩ := ha.wf
  obtain ⟨b1, b2, b3⟩ := hb.wf
  have r1 := dimRank_lt a3
  have r2 := dimRank_lt b3
  unfold key at hlt
  by_cases hp : pre a = pre b
  · obtain ⟨g1, g2, g3, g4⟩ := pre_inj hp
    have hr : dimRank a.dim < dimRank b.dim := by omega
    have hd : a.dim ≠ b.dim := by rintro h; rw [h] at hr; omega
    obtain ⟨t1, t2⟩ := hm g1 g2 g3 g4 hd
    have nba : isSub true b a = false := by
      by_contra h
      have h : isSub true b a = true := by simpa using h
      rcases isSub_dim g1.symm h with h | ⟨-, h⟩
      · exact hd h.symm
      · unfold dimRank at hr
        rw [if_pos h] at hr
        split at hr <;> omega
    by_cases hb1 : b.dim = -1 ∧ a.dim ≠ 0
    · have := isSub_any ha hb hp hb1.2 hb1.1
      exact ⟨.inl this, nba, .inl this⟩
    · have hdc : dimCode a.dim < dimCode b.dim := by
        unfold dimRank at hr
        unfold dimCode
        split at hr
        · split at hr <;> omega
        · split at hr
          · have : a.dim = 0 := by
              by_contra h0
              exact hb1 ⟨by assumption, h0⟩
            simp [this, *]
          · rename_i x y
            rw [if_neg x, if_neg y]
            split <;> split <;> omega
      have : toInt a < toInt b := by
        rw [toInt_pre, toInt_pre, hp, t1, t2]
        omega
      refine ⟨.inr ⟨nba, ?_⟩, nba, .inr ?_⟩
      · unfold Types.cmp; rw [if_pos this]
      · unfold Types.cmp; rw [if_neg (by omega), if_pos (by omega)]
  · have hp' : pre a < pre b := by omega
    obtain ⟨c1, c2⟩ := cmp_of_pre ha hb hp'
    have nba : isSub true b a = false := by
      by_contra h
      have := isSub_pre hb ha (by simpa using h)
      omega
    exact ⟨.inr ⟨nba, c1⟩, nba, .inr c2⟩

theorem cmpArgs_iff : ∀ (as bs : List Ty), as.length = bs.length → (∀ t ∈ as, Sig t) → (∀ t ∈ bs, Sig t) →
    (∀ (i : Nat) (a b : Ty), as[i]? = some a → bs[i]? = some b → NoMixTy a b) →
    (cmpArgs as bs = true ↔ as.map key < bs.map key)
  | [], [], _, _, _, _ => by simp [cmpArgs]
  | a :: as, b :: bs, hl, ha, hb, hm => by
    have ih := cmpArgs_iff as bs (by simpa using hl) (fun t h => ha t (.tail _ h)) (fun t h => hb t (.tail _ h))
      (fun i x y h1 h2 => hm (i + 1) x y (by simpa using h1) (by simpa using h2))
    have sa := ha a (.head _)
    have sb := hb b (.head _)
    have m0 := hm 0 a b rfl rfl
    simp only [List.map_cons, List.cons_lt_cons_iff]
    rw [cmpArgs]
    rcases Nat.lt_trichotomy (key a) (key b) with h | h | h
    · obtain ⟨e1, -, h1, -⟩ := step_iff sa sb m0 h
      rw [if_neg (by simp [e1])]
      simp only [h, true_or, iff_true]
      rcases h1 with h1 | ⟨h1, h2⟩
      · rw [if_pos h1]
      · by_cases h3 : isSub true a b = true
        · rw [if_pos h3]
        · rw [if_neg h3, if_neg (by simp [h1]), if_pos h2]
    · rw [if_pos ((eq_key sa sb).2 h), ih]
      simp [h]
    · obtain ⟨-, e1, -, h1, h2⟩ := step_iff sb sa m0.symm h
      rw [if_neg (by simp [e1]), if_neg (by simp [h1])]
      have hn : ¬ (key a < key b ∨ key a = key b ∧ as.map key < bs.map key) := by omega
      simp only [hn, iff_false, Bool.not_eq_true]
      by_cases h3 : isSub true b a = true
      · rw [if_pos h3]
      · rw [if_neg h3]
        have c := h2.resolve_left h3
        rw [if_neg (by omega), if_pos c]
  | [], _ :: _, h, _, _, _ => by simp at h
  | _ :: _, [], h, _, _, _ => by simp at h

/-- The sort key of an entry. -/
def Entry.key (e : Entry) : List Nat := e.t.length :: e.t.map Overload.key

/-- Requirement on the declared overloads: their types are modelled, and no two of them have, at the same place, types that differ
in their dimensions only and contain enumerations. -/
def NoMix (v : List Entry) : Prop :=
  (∀ e ∈ v, ∀ t ∈ e.t, Sig t) ∧
  ∀ e ∈ v, ∀ e' ∈ v, ∀ (i : Nat) (a b : Ty), e.t[i]? = some a → e'.t[i]? = some b → NoMixTy a b

theorem compare_iff {v : List Entry} (h : NoMix v) {e e' : Entry} (he : e ∈ v) (he' : e' ∈ v) :
    compare e e' = true ↔ e.key < e'.key := by
  unfold compare Entry.key
  rw [List.cons_lt_cons_iff]
  split
  · rename_i g; simp [g]
  · split
    · rename_i g1 g2
      rw [cmpArgs_iff _ _ g2 (h.1 e he) (h.1 e' he') (h.2 e he e' he')]
      simp [g2]
    · rename_i g1 g2
      simp [g1, g2]

theorem tysEq_iff : ∀ {as bs : List Ty}, (∀ t ∈ as, Sig t) → (∀ t ∈ bs, Sig t) → (tysEq as bs = true ↔ as.map key = bs.map key)
  | [], [], _, _ => by simp [tysEq]
  | [], _ :: _, _, _ => by simp [tysEq]
  | _ :: _, [], _, _ => by simp [tysEq]
  | a :: as, b :: bs, ha, hb => by
    have ih := tysEq_iff (as := as) (bs := bs) (fun t h => ha t (.tail _ h)) (fun t h => hb t (.tail _ h))
    unfold tysEq at *
    simp only [List.length_cons, List.zip_cons_cons, List.all_cons, List.map_cons, List.cons.injEq, Bool.and_eq_true, beq_iff_eq,
      Nat.add_right_cancel_iff] at *
    rw [← ih, eq_key (ha a (.head _)) (hb b (.head _))]
    tauto

/-- The requirement of `std::sort` on its comparison: a strict weak order on the elements of the range. -/
structure StrictWeak (v : List Entry) : Prop where
  irrefl : ∀ e ∈ v, compare e e = false
  trans : ∀ e ∈ v, ∀ e' ∈ v, ∀ e'' ∈ v, compare e e' = true → compare e' e'' = true → compare e e'' = true
  incomp : ∀ e ∈ v, ∀ e' ∈ v, ∀ e'' ∈ v, compare e e' = false → compare e' e = false → compare e' e'' = false → compare e'' e' = false →
    compare e e'' = false ∧ compare e'' e = false

/-- What `std::sort(v, compare)` guarantees (lib/model.cpp 870–895 `sortFn`): a rearrangement, which is in order provided that the
comparison is a strict weak order. -/
def SortOf (v v' : List Entry) : Prop := v'.Perm v ∧ (StrictWeak v → v'.Pairwise fun a b => compare b a = false)

theorem NoMix.strictWeak {v : List Entry} (h : NoMix v) : StrictWeak v := by
  have ng : ∀ e ∈ v, ∀ e' ∈ v, (compare e e' = false ↔ e'.key ≤ e.key) := by
    intro e he e' he'
    rw [← not_lt, ← compare_iff h he he']
    simp
  refine ⟨fun e he => (ng e he e he).2 le_rfl, fun e he e' he' e'' he'' h1 h2 => ?_, fun e he e' he' e'' he'' h1 h2 h3 h4 => ?_⟩
  · rw [compare_iff h he he'] at h1
    rw [compare_iff h he' he''] at h2
    rw [compare_iff h he he'']
    exact lt_trans h1 h2
  · rw [ng e he e' he'] at h1
    rw [ng e' he' e he] at h2
    rw [ng e' he' e'' he''] at h3
    rw [ng e'' he'' e' he'] at h4
    rw [ng e he e'' he'', ng e'' he'' e he]
    exact ⟨le_trans h3 h1, le_trans h2 h4⟩

theorem NoMix.perm {v v' : List Entry} (h : NoMix v) (hp : v'.Perm v) : NoMix v' :=
  ⟨fun e he => h.1 e (hp.subset he), fun e he e' he' => h.2 e (hp.subset he) e' (hp.subset he')⟩

theorem SortOf.sorted {v v' : List Entry} (hs : SortOf v v') (h : NoMix v) : v'.Pairwise fun a b => a.key ≤ b.key := by
  refine (hs.2 h.strictWeak).imp_of_mem ?_
  intro a b ha hb hc
  rw [← not_lt, ← compare_iff h (hs.1.subset hb) (hs.1.subset ha)]
  simp [hc]

end Overload
end MZ
