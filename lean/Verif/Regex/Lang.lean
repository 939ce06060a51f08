import Verif.Regex.Parse
import Verif.Ext.Auto

/-! # Languages and automata -/

namespace MZ
namespace Regex

/-! ## Values -/

theorem mem_upto {a b v : Int} : v ∈ upto a b ↔ a ≤ v ∧ v ≤ b := by
  unfold upto
  simp only [List.mem_map, List.mem_range]
  constructor
  · rintro ⟨k, hk, rfl⟩; omega
  · rintro ⟨h1, h2⟩; exact ⟨(v - a).toNat, by omega, by omega⟩

theorem mem_vals {v : Int} {l : List Item} : v ∈ vals l ↔ ∃ i ∈ l, i.Has v := by
  unfold vals
  simp only [List.mem_flatMap]
  constructor
  · rintro ⟨i, hi, hv⟩
    refine ⟨i, hi, ?_⟩
    cases i with
    | one a => simpa [Item.vals, Item.Has] using hv
    | between a b =>
      simp only [Item.vals] at hv
      simp only [Item.Has]
      split_ifs at hv
      · exact Or.inr (mem_upto.mp hv)
      · exact Or.inl (mem_upto.mp hv)
  · rintro ⟨i, hi, hv⟩
    refine ⟨i, hi, ?_⟩
    cases i with
    | one a => simpa [Item.vals, Item.Has] using hv
    | between a b =>
      simp only [Item.Has] at hv
      simp only [Item.vals]
      split_ifs
      · exact mem_upto.mpr (by omega)
      · exact mem_upto.mpr (by omega)

theorem mem_complement {lo hi v : Int} {l : List Item} : v ∈ complement lo hi (vals l) ↔ (lo ≤ v ∧ v ≤ hi) ∧ ¬ ∃ i ∈ l, i.Has v := by
  unfold complement
  simp only [List.mem_filter, mem_upto, decide_eq_true_eq, mem_vals]

/-! ## Languages of sequences over a domain -/

/-- The same sequences over a domain. -/
def Same (dom : Int → Prop) (L M : Language Int) : Prop := ∀ w : List Int, (∀ v ∈ w, dom v) → (w ∈ L ↔ w ∈ M)

theorem Same.add {dom : Int → Prop} {L M L' M' : Language Int} (h : Same dom L L') (h' : Same dom M M') : Same dom (L + M) (L' + M') := by
  intro w hw
  rw [Language.mem_add, Language.mem_add, h w hw, h' w hw]

theorem Same.mul {dom : Int → Prop} {L M L' M' : Language Int} (h : Same dom L L') (h' : Same dom M M') : Same dom (L * M) (L' * M') := by
  intro w hw
  rw [Language.mem_mul, Language.mem_mul]
  constructor
  · rintro ⟨a, ha, b, hb, rfl⟩
    exact ⟨a, (h a (fun v hv => hw v (by simp [hv]))).mp ha, b, (h' b (fun v hv => hw v (by simp [hv]))).mp hb, rfl⟩
  · rintro ⟨a, ha, b, hb, rfl⟩
    exact ⟨a, (h a (fun v hv => hw v (by simp [hv]))).mpr ha, b, (h' b (fun v hv => hw v (by simp [hv]))).mpr hb, rfl⟩

theorem Same.pow {dom : Int → Prop} {L L' : Language Int} (h : Same dom L L') : ∀ n : Nat, Same dom (L ^ n) (L' ^ n)
  | 0 => fun w _ => by simp
  | n + 1 => by rw [pow_succ, pow_succ]; exact (Same.pow h n).mul h

theorem Same.star {dom : Int → Prop} {L L' : Language Int} (h : Same dom L L') : Same dom (KStar.kstar L) (KStar.kstar L') := by
  intro w hw
  simp only [Language.kstar_eq_iSup_pow, Language.mem_iSup]
  exact exists_congr fun n => h.pow n w hw

theorem Same.single {dom p q : Int → Prop} (h : ∀ v, dom v → (p v ↔ q v)) : Same dom (single p) (single q) := by
  intro w hw
  change (∃ v, p v ∧ w = [v]) ↔ ∃ v, q v ∧ w = [v]
  refine exists_congr fun v => ?_
  constructor
  · rintro ⟨h1, rfl⟩; exact ⟨(h v (hw v (by simp))).mp h1, rfl⟩
  · rintro ⟨h1, rfl⟩; exact ⟨(h v (hw v (by simp))).mpr h1, rfl⟩

theorem between_iff {L : Language Int} {n m : Nat} {w : List Int} :
    w ∈ times L n m ↔ ∃ k, n ≤ k ∧ k ≤ m ∧ w ∈ L ^ k := Iff.rfl

theorem anyOf_some {l : List Int} {r : Reg} (h : anyOf l = some r) : r = .anyOf l := by
  unfold anyOf at h
  split_ifs at h
  exact (Option.some.inj h).symm

theorem act_lang (G : Gecode) {lo hi : Int} {dom : Int → Prop} (hd : ∀ v, dom v → lo ≤ v ∧ v ≤ hi) (e : Re) :
    ∀ r, e.Ordered → act lo hi e = some r → Same dom (G.lang r) (e.lang dom) := by
  induction e with
  | num n =>
    intro r _ h
    simp only [act, Option.some.injEq] at h
    rw [← h, G.sym]
    exact Same.single fun v _ => Iff.rfl
  | any =>
    intro r _ h
    rw [anyOf_some h, G.anyOf]
    exact Same.single fun v hv => by rw [mem_upto]; exact ⟨fun _ => hv, hd v⟩
  | cls l =>
    intro r _ h
    rw [anyOf_some h, G.anyOf]
    exact Same.single fun v hv => mem_vals
  | notCls l =>
    intro r _ h
    rw [anyOf_some h, G.anyOf]
    exact Same.single fun v hv => by rw [mem_complement]; exact and_congr_left fun _ => ⟨fun _ => hv, hd v⟩
  | alt a b iha ihb =>
    intro r ho h
    simp only [act, bind, Option.bind_eq_some_iff, Option.some.injEq] at h
    obtain ⟨x, hx, y, hy, rfl⟩ := h
    rw [G.alt]
    exact (iha x ho.1 hx).add (ihb y ho.2 hy)
  | cat a b iha ihb =>
    intro r ho h
    simp only [act, bind, Option.bind_eq_some_iff, Option.some.injEq] at h
    obtain ⟨x, hx, y, hy, rfl⟩ := h
    rw [G.cat]
    exact (iha x ho.1 hx).mul (ihb y ho.2 hy)
  | star a ih =>
    intro r ho h
    simp only [act, bind, Option.bind_eq_some_iff, Option.some.injEq] at h
    obtain ⟨x, hx, rfl⟩ := h
    rw [G.star]
    exact (ih x ho hx).star
  | plus a ih =>
    intro r ho h
    simp only [act, bind, Option.bind_eq_some_iff, Option.some.injEq] at h
    obtain ⟨x, hx, rfl⟩ := h
    rw [G.plus]
    exact (ih x ho hx).mul (ih x ho hx).star
  | optional a ih =>
    intro r ho h
    simp only [act, bind, Option.bind_eq_some_iff, Option.some.injEq] at h
    obtain ⟨x, hx, rfl⟩ := h
    rw [G.quant _ _ _ (by omega)]
    intro w hw
    rw [between_iff, Re.lang, Language.mem_add]
    constructor
    · rintro ⟨k, _, hk, h⟩
      obtain rfl | rfl : k = 0 ∨ k = 1 := by omega
      · exact Or.inl (by simpa using h)
      · exact Or.inr ((ih x ho hx w hw).mp (by simpa using h))
    · rintro (h | h)
      · exact ⟨0, by omega, by omega, by simpa using h⟩
      · exact ⟨1, by omega, by omega, by simpa using (ih x ho hx w hw).mpr h⟩
  | exact a n ih =>
    intro r ho h
    simp only [act, bind, Option.bind_eq_some_iff, Option.some.injEq] at h
    obtain ⟨x, hx, rfl⟩ := h
    rw [G.quant _ _ _ (le_refl _)]
    intro w hw
    rw [between_iff, Re.lang, ← (ih x ho hx).pow n w hw]
    constructor
    · rintro ⟨k, h1, h2, h⟩
      obtain rfl : k = n := by omega
      exact h
    · exact fun h => ⟨n, le_refl _, le_refl _, h⟩
  | atLeast a n ih =>
    intro r ho h
    simp only [act, bind, Option.bind_eq_some_iff, Option.some.injEq] at h
    obtain ⟨x, hx, rfl⟩ := h
    rw [G.atLeast]
    exact ((ih x ho hx).pow n).mul (ih x ho hx).star
  | between a n m ih =>
    intro r ho h
    simp only [act, bind, Option.bind_eq_some_iff, Option.some.injEq] at h
    obtain ⟨x, hx, rfl⟩ := h
    rw [G.quant _ _ _ ho.1]
    intro w hw
    rw [between_iff, Re.lang, between_iff]
    exact exists_congr fun k => and_congr_right fun _ => and_congr_right fun _ => (ih x ho.2 hx).pow k w hw

theorem items_ne {ts : List Tok} {l : List Item} (h : Items ts l) : vals l ≠ [] := by
  have : ∃ v, v ∈ vals l := by
    cases h with
    | one a => exact ⟨a, mem_vals.mpr ⟨.one a, by simp, rfl⟩⟩
    | consOne a _ => exact ⟨a, mem_vals.mpr ⟨.one a, by simp, rfl⟩⟩
    | range a b => exact ⟨a, mem_vals.mpr ⟨.between a b, by simp, by simp only [Item.Has]; omega⟩⟩
    | consRange a b _ => exact ⟨a, mem_vals.mpr ⟨.between a b, by simp, by simp only [Item.Has]; omega⟩⟩
  obtain ⟨v, hv⟩ := this
  exact List.ne_nil_of_mem hv

theorem act_exists {lo hi : Int} {k : Kind} {ts : List Tok} {e : Re} (h : Written k ts e) :
    e.Inhabited lo hi ↔ ∃ r, act lo hi e = some r := by
  induction h with
  | num n => simp [Re.Inhabited, act]
  | any =>
    simp only [Re.Inhabited, act, anyOf]
    split_ifs with h
    · constructor
      · intro hle
        have := (mem_upto (a := lo) (b := hi) (v := lo)).mpr ⟨le_refl _, hle⟩
        simp [h] at this
      · simp
    · obtain ⟨v, hv⟩ := List.exists_mem_of_ne_nil _ h
      have := mem_upto.mp hv
      simp only [Option.some.injEq, exists_eq', iff_true]
      omega
  | cls hI => simp [Re.Inhabited, act, anyOf, items_ne hI]
  | notCls hI =>
    simp only [Re.Inhabited, act, anyOf]
    split_ifs with h
    · constructor
      · rintro ⟨v, h1, h2, h3⟩
        have := (mem_complement (lo := lo) (hi := hi)).mpr ⟨⟨h1, h2⟩, h3⟩
        simp [h] at this
      · simp
    · obtain ⟨v, hv⟩ := List.exists_mem_of_ne_nil _ h
      have := mem_complement.mp hv
      simp only [Option.some.injEq, exists_eq', iff_true]
      exact ⟨v, this.1.1, this.1.2, this.2⟩
  | group _ ih | plain _ ih | last _ ih | only _ ih => exact ih
  | star _ ih | plus _ ih | optional _ ih | exact _ _ ih | atLeast _ _ ih | between _ _ _ ih =>
    simp only [Re.Inhabited, ih, act, bind, Option.bind_eq_some_iff, Option.some.injEq]
    constructor
    · rintro ⟨r, hr⟩; exact ⟨_, r, hr, rfl⟩
    · rintro ⟨_, r, hr, _⟩; exact ⟨r, hr⟩
  | cat _ _ ih ih' | alt _ _ ih ih' =>
    simp only [Re.Inhabited, ih, ih', act, bind, Option.bind_eq_some_iff, Option.some.injEq]
    constructor
    · rintro ⟨⟨r, hr⟩, s, hs⟩; exact ⟨_, r, hr, s, hs, rfl⟩
    · rintro ⟨_, r, hr, s, hs, _⟩; exact ⟨⟨r, hr⟩, s, hs⟩

/-! ## The table -/

theorem table_none {lo hi : Int} {i : Nat} {a : Int} : ∀ (l : List (Nat × Int × Nat)) (d : Nat → Int → Int),
    (∀ o, (i, a, o) ∉ l) → table lo hi l d i (a - lo) = d i (a - lo) := by
  intro l
  induction l with
  | nil => intros; rfl
  | cons t l ih =>
    intro d hn
    obtain ⟨i', a', o'⟩ := t
    rw [table, ih _ (fun o' ho' => hn o' (by simp [ho']))]
    split_ifs with hc
    · dsimp only
      rw [if_neg]
      rintro ⟨e1, e2⟩
      have : a = a' := by omega
      subst e1 this
      exact hn o' (by simp)
    · rfl

theorem table_of_mem {lo hi : Int} {i : Nat} {a : Int} {o : Nat} (h1 : lo ≤ a) (h2 : a ≤ hi) : ∀ (l : List (Nat × Int × Nat)) (d : Nat → Int → Int),
    (i, a, o) ∈ l → (∀ o', (i, a, o') ∈ l → o' = o) → table lo hi l d i (a - lo) = (o : Int) + 1 := by
  intro l
  induction l with
  | nil => intro d h; simp at h
  | cons t l ih =>
    intro d h ho
    obtain ⟨i', a', o'⟩ := t
    rw [table]
    by_cases hm : (i, a, o) ∈ l
    · exact ih _ hm (fun o' ho' => ho o' (by simp [ho']))
    · simp only [List.mem_cons, hm, or_false, Prod.mk.injEq] at h
      obtain ⟨rfl, rfl, rfl⟩ := h
      have hnone : ∀ o', (i, a, o') ∉ l := fun o' ho' => hm (by rwa [ho o' (by simp [ho'])] at ho')
      rw [table_none l _ hnone, if_pos ⟨h1, h2⟩, if_pos ⟨rfl, by omega⟩]

open MZ.Globals MZ.LexOrd MZ.LexOrd.Spec MZ.Ext MZ.Ext.Spec

theorem elems_compr_map {α β : Type} (a : Arr α) (f : α → β) : elems (a.compr f) = (elems a).map f := by
  apply List.ext_getElem
  · rw [length_elems (a.compr f), List.length_map]
    have := len_eq_length a
    simp only [Arr.compr]
    omega
  · intro k h1 h2
    rw [getElem_elems, List.getElem_map, getElem_elems]
    simp only [Arr.compr]
    congr 2; omega

/-- The final states given to `regular`. -/
def finals (a : Dfa) : Finset Int :=
  (Finset.range a.finalLst).filter (fun q => a.finalFst + 1 ≤ q + 1) |>.image (fun q : Nat => (q : Int) + 1)

theorem mem_finals {a : Dfa} {q : Nat} : (q : Int) + 1 ∈ finals a ↔ a.finalFst ≤ q ∧ q < a.finalLst := by
  unfold finals
  simp only [Finset.mem_image, Finset.mem_filter, Finset.mem_range]
  constructor
  · rintro ⟨k, h, e⟩; omega
  · intro h; exact ⟨q, by omega, rfl⟩

/-- The matrix given to `regular`. -/
def matrix (lo hi : Int) (a : Dfa) : Mat Int :=
  ⟨1, a.nStates, 1, hi - lo + 1, fun i j => table lo hi a.trans (fun _ _ => 0) (i - 1).toNat (j - 1)⟩

theorem accepts_iff {lo hi : Int} {a : Dfa} {L : Language Int} (ha : a.For L) : ∀ (w : List Int) (q : Nat), (∀ v ∈ w, lo ≤ v ∧ v ≤ hi) →
    (Accepts (stepOf (matrix lo hi a).val (fun x => 1 ≤ x ∧ x ≤ hi - lo + 1)) (finals a) ((q : Int) + 1) (w.map (· + (1 - lo))) ↔ a.Accepts q w)
  | [], q, _ => mem_finals
  | v :: w, q, hw => by
    have hv := hw v (by simp)
    simp only [List.map_cons, Accepts, Dfa.Accepts]
    have hval : (matrix lo hi a).val ((q : Int) + 1) (v + (1 - lo)) = table lo hi a.trans (fun _ _ => 0) q (v - lo) := by
      simp only [matrix]
      rw [show v + (1 - lo) - 1 = v - lo by omega, show ((q : Int) + 1 - 1).toNat = q by omega]
    constructor
    · rintro ⟨q', h1, h2⟩
      unfold stepOf at h1
      split_ifs at h1 with hc
      simp only [Option.some.injEq] at h1
      rw [hval] at h1 hc
      by_cases hm : ∃ o, (q, v, o) ∈ a.trans
      · obtain ⟨o, ho⟩ := hm
        rw [table_of_mem hv.1 hv.2 _ _ ho (fun o' ho' => ha.det _ _ _ _ ho' ho)] at h1
        subst h1
        exact ⟨o, ho, (accepts_iff ha w o (fun v hv => hw v (by simp [hv]))).mp h2⟩
      · push Not at hm
        rw [table_none _ _ hm] at hc
        exact absurd rfl hc.2
    · rintro ⟨o, ho, h2⟩
      refine ⟨(o : Int) + 1, ?_, (accepts_iff ha w o (fun v hv => hw v (by simp [hv]))).mpr h2⟩
      unfold stepOf
      rw [hval, table_of_mem hv.1 hv.2 _ _ ho (fun o' ho' => ha.det _ _ _ _ ho' ho), if_pos]
      exact ⟨by omega, by omega⟩

theorem matrix_ok {lo hi : Int} {a : Dfa} {L : Language Int} (ha : a.For L) (h : lo ≤ hi) :
    regularOk a.nStates 1 (hi - lo + 1) (matrix lo hi a) 1 (finals a) := by
  have hf := ha.first
  refine ⟨by omega, by omega, ⟨rfl, rfl, rfl, rfl⟩, ?_, ⟨by omega, by omega⟩, ?_⟩
  · intro i j h1 h2 h3 h4
    simp only [matrix]
    obtain ⟨a', rfl⟩ : ∃ a', j = a' - lo + 1 := ⟨j + lo - 1, by omega⟩
    rw [show a' - lo + 1 - 1 = a' - lo by omega]
    by_cases hm : ∃ o, ((i - 1).toNat, a', o) ∈ a.trans
    · obtain ⟨o, ho⟩ := hm
      rw [table_of_mem (by omega) (by omega) _ _ ho (fun o' ho' => ha.det _ _ _ _ ho' ho)]
      have := (ha.states _ _ _ ho).2
      omega
    · push Not at hm
      rw [table_none _ _ hm]
      omega
  · intro q hq
    unfold finals at hq
    simp only [Finset.mem_image, Finset.mem_filter, Finset.mem_range] at hq
    obtain ⟨k, h, rfl⟩ := hq
    have := ha.final
    omega

/-- The constraint that is posted. -/
theorem post_iff {lo hi : Int} {a : Dfa} {L : Language Int} (ha : a.For L) (h : lo ≤ hi) (xs : Arr Int)
    (hx : ∀ v ∈ elems xs, lo ≤ v ∧ v ≤ hi) : ∃ p, post lo hi a xs = some p ∧ (p ↔ elems xs ∈ L) := by
  have hok := matrix_ok ha h
  unfold post Ext.regular
  dsimp only
  refine ⟨_, if_pos hok, ?_⟩
  refine (fznRegular_iff hok _).trans ?_
  have he : elems (if 1 - lo = 0 then xs else xs.compr (· + (1 - lo))) = (elems xs).map (· + (1 - lo)) := by
    split_ifs with h0
    · rw [h0]; simp
    · exact elems_compr_map xs _
  rw [he]
  have := accepts_iff ha (lo := lo) (hi := hi) (elems xs) 0 hx
  rw [← ha.accepts, ← this]
  rfl

end Regex
end MZ
