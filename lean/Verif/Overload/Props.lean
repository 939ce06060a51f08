import Verif.Overload.Search
/-!
# C61: overload resolution

Specification: when a declaration accepts the arguments of a call, and when one declaration is more specific than another.
-/
namespace MZ
namespace Overload
open Types

/-- The declaration `f` accepts a call with arguments of these types: every argument can be passed to its parameter, and every
further parameter has a default. -/
def Accepts (T : Tab) (strict : Bool) (f : Fn) (args : List Ty) : Prop :=
  args.length ≤ f.params.length ∧ (∀ p ∈ f.params.drop args.length, p.dflt = true) ∧
  ∀ (j : Nat) (a p : Ty), args[j]? = some a → f.tys[j]? = some p → envSub T strict a p = true

/-- Every argument that `f` accepts at one of the first `n` places, `g` accepts as well: the parameter types of `f` are equal (up to
the enumeration) or subtypes. -/
def AtLeastAsSpecific (f g : Fn) (n : Nat) : Prop :=
  ∀ (j : Nat) (a b : Ty), j < n → f.tys[j]? = some a → g.tys[j]? = some b →
    (a.bt = b.bt ∧ a.var = b.var ∧ a.set = b.set ∧ a.opt = b.opt ∧ a.dim = b.dim) ∨ isSub true a b = true

/-- `f` is strictly more specific than `g`. -/
def MoreSpecific (f g : Fn) (n : Nat) : Prop := AtLeastAsSpecific f g n ∧ ¬ AtLeastAsSpecific g f n

/-- The declarations that count: definitions, and declarations without body that are the only one of their signature. -/
def Final (fs : List Fn) (f : Fn) : Prop := f ∈ fs ∧ (f.body = true ∨ ∀ g ∈ fs, SameSig g f → g = f)

theorem Final.mem {fs : List Fn} {v : List Entry} {f : Fn} (h : Final fs f) (hi : TInv fs v) : f.entry ∈ v := by
  rcases h.2 with hb | hu
  · exact hi.body f h.1 hb
  · obtain ⟨e, he, hs⟩ := hi.sig f h.1
    obtain ⟨g1, g2⟩ := hi.src e he
    have := hu e.fi g2 hs
    rw [this] at g1
    exact g1 ▸ he

theorem zip_all {α β : Type} {p : α → β → Bool} : ∀ {l : List α} {m : List β},
    ((List.zip l m).all (fun q => p q.1 q.2) = true ↔ ∀ (j : Nat) (a : α) (b : β), l[j]? = some a → m[j]? = some b → p a b = true)
  | [], _ => by simp
  | _ :: _, [] => by simp
  | x :: l, y :: m => by
    rw [List.zip_cons_cons, List.all_cons, Bool.and_eq_true, zip_all]
    constructor
    · rintro ⟨h1, h2⟩ j a b ha hb
      cases j with
      | zero =>
        simp only [List.getElem?_cons_zero, Option.some.injEq] at ha hb
        rw [← ha, ← hb]; exact h1
      | succ j => exact h2 j a b (by simpa using ha) (by simpa using hb)
    · intro h
      exact ⟨h 0 x y rfl rfl, fun j a b ha hb => h (j + 1) a b (by simpa using ha) (by simpa using hb)⟩

theorem argScan_fst (T : Tab) (strict : Bool) : ∀ (as ps : List Ty) (b : Bool), (argScan T strict as ps b).1 = argsOk T strict as ps
  | [], ps, b => by simp [argScan, argsOk]
  | _ :: _, [], b => by simp [argScan, argsOk]
  | a :: as, p :: ps, b => by
    rw [argScan]
    have ih := argScan_fst T strict as ps
    unfold argsOk at *
    rw [List.zip_cons_cons, List.all_cons]
    split
    · rename_i h; simp at h; simp [h]
    · rename_i h; simp at h; simp [h, ih]

theorem argScan_snd (T : Tab) (strict : Bool) : ∀ (as ps : List Ty), (∀ a ∈ as, a.bt ≠ .bot) → (argScan T strict as ps false).2 = false
  | [], ps, _ => by simp [argScan]
  | _ :: _, [], _ => by simp [argScan]
  | a :: as, p :: ps, h => by
    rw [argScan]
    have ih := argScan_snd T strict as ps fun a ha => h a (.tail _ ha)
    split
    · rfl
    · have : (a.bt == BT.bot) = false := by simpa using h a (.head _)
      simpa [this] using ih

/-- An entry matches the call. -/
def ok (T : Tab) (strict : Bool) (args : List Ty) (e : Entry) : Bool := viable e args.length && argsOk T strict args e.t

theorem ok_iff {T : Tab} {strict : Bool} {args : List Ty} {f : Fn} : ok T strict args f.entry = true ↔ Accepts T strict f args := by
  unfold ok viable argsOk Accepts Fn.entry
  rw [Bool.and_eq_true, zip_all (p := envSub T strict)]
  simp only [Bool.and_eq_true, decide_eq_true_eq, List.all_eq_true, tys_length, and_assoc]

/-- Whatever the arguments, the candidates of the scan match. -/
theorem scan_sound {T : Tab} {strict : Bool} {args : List Ty} {fill : Bool} : ∀ (v : List Entry) (s : Scan) (w : List Entry),
    (∀ e ∈ v, e ∈ w) → (∀ e, s.best = some e → e ∈ w ∧ ok T strict args e = true) →
    (∀ f ∈ s.matched, ∃ e ∈ w, e.fi = f ∧ ok T strict args e = true) →
    (∀ e, (scan T strict args fill v s).best = some e → e ∈ w ∧ ok T strict args e = true) ∧
    (∀ f ∈ (scan T strict args fill v s).matched, ∃ e ∈ w, e.fi = f ∧ ok T strict args e = true)
  | [], s, w, _, hb, hm => ⟨hb, hm⟩
  | i :: v, s, w, hw, hb, hm => by
    have hv : ∀ e ∈ v, e ∈ w := fun e he => hw e (.tail _ he)
    have hi := hw i (.head _)
    rw [scan]
    split
    · rename_i h1
      simp only
      split
      · rename_i h2
        have hok : ok T strict args i = true := by
          unfold ok
          rw [h1, ← argScan_fst T strict args i.t s.bot, h2]; rfl
        split
        · refine scan_sound v _ w hv hb ?_
          intro f hf
          rcases List.mem_append.1 hf with hf | hf
          · exact hm f hf
          · rw [List.mem_singleton.1 hf]; exact ⟨i, hi, rfl, hok⟩
        · split
          · split
            · refine scan_sound v _ w hv ?_ hm
              intro e he
              simp only [Option.some.injEq] at he
              exact he ▸ ⟨hi, hok⟩
            · refine ⟨?_, hm⟩
              intro e he
              simp only [Option.some.injEq] at he
              exact he ▸ ⟨hi, hok⟩
          · rename_i b hbest
            split
            · refine scan_sound v _ w hv ?_ hm
              intro e he
              simp only [Option.some.injEq] at he
              exact he ▸ ⟨hi, hok⟩
            · refine scan_sound v _ w hv ?_ hm
              intro e he
              exact hb e he
      · exact scan_sound v _ w hv hb hm
    · exact scan_sound v _ w hv hb hm

/-- Without an argument of type `bot` the scan is a fold over the matching entries. -/
theorem scan_skip {T : Tab} {strict : Bool} {args : List Ty} (hbot : ∀ a ∈ args, a.bt ≠ .bot) {fill : Bool} {i : Entry} {v : List Entry}
    {b : Option Entry} (h : ok T strict args i = false) :
    scan T strict args fill (i :: v) ⟨[], b, false⟩ = scan T strict args fill v ⟨[], b, false⟩ := by
  rw [scan]
  split
  · rename_i h1
    have h2 := argScan_snd T strict args i.t hbot
    have h3 : (argScan T strict args i.t false).1 = false := by
      rw [argScan_fst]
      unfold ok at h
      rw [h1] at h
      simpa using h
    simp only [h2, h3, Bool.false_eq_true, if_false]
  · rfl

theorem scan_hit {T : Tab} {strict : Bool} {args : List Ty} (hbot : ∀ a ∈ args, a.bt ≠ .bot) {fill : Bool} {i : Entry} {v : List Entry}
    {b : Option Entry} (h : ok T strict args i = true) :
    scan T strict args fill (i :: v) ⟨[], b, false⟩ =
      match b with
      | .none => if fill then scan T strict args fill v ⟨[], some i, false⟩ else ⟨[], some i, false⟩
      | some b =>
        if atLeast i.t b.t args.length && !atLeast b.t i.t args.length then scan T strict args fill v ⟨[], some i, false⟩
        else scan T strict args fill v ⟨[], some b, false⟩ := by
  unfold ok at h
  simp only [Bool.and_eq_true] at h
  rw [scan, if_pos h.1]
  have h2 := argScan_snd T strict args i.t hbot
  have h3 : (argScan T strict args i.t false).1 = true := by rw [argScan_fst]; exact h.2
  simp only [h2, h3, Bool.false_eq_true, if_false, if_true]
  cases b <;> rfl

/-- The search for a call that cannot use defaults: the first matching entry. -/
theorem scan_first {T : Tab} {strict : Bool} {args : List Ty} (hbot : ∀ a ∈ args, a.bt ≠ .bot) : ∀ (v : List Entry),
    scan T strict args false v ⟨[], .none, false⟩ = ⟨[], v.find? (ok T strict args), false⟩
  | [] => rfl
  | i :: v => by
    cases h : ok T strict args i with
    | true => rw [scan_hit hbot h, List.find?_cons_of_pos h]; rfl
    | false => rw [scan_skip hbot h, List.find?_cons_of_neg (by simp [h])]; exact scan_first hbot v

def lt (n : Nat) (x y : Entry) : Prop := atLeast x.t y.t n = true ∧ atLeast y.t x.t n = false

theorem scan_best {T : Tab} {strict : Bool} {args : List Ty} (hbot : ∀ a ∈ args, a.bt ≠ .bot) (w : List Entry)
    (htr : ∀ x ∈ w, ∀ y ∈ w, ∀ z ∈ w, ok T strict args x = true → ok T strict args y = true → ok T strict args z = true →
      atLeast x.t y.t args.length = true → atLeast y.t z.t args.length = true → atLeast x.t z.t args.length = true) :
    ∀ (v seen : List Entry) (b : Entry), (∀ e ∈ v, e ∈ w) → (∀ e ∈ seen, e ∈ w) → b ∈ w → ok T strict args b = true →
      (∀ x ∈ seen, ok T strict args x = true → ¬ lt args.length x b) →
      ∃ b', scan T strict args true v ⟨[], some b, false⟩ = ⟨[], some b', false⟩ ∧ b' ∈ w ∧ ok T strict args b' = true ∧
        ∀ x ∈ seen ++ v, ok T strict args x = true → ¬ lt args.length x b'
  | [], seen, b, _, _, hb, hok, hs => ⟨b, rfl, hb, hok, by simpa using hs⟩
  | i :: v, seen, b, hv, hsw, hb, hok, hs => by
    have hi := hv i (.head _)
    have hv' : ∀ e ∈ v, e ∈ w := fun e he => hv e (.tail _ he)
    have hsw' : ∀ e ∈ seen ++ [i], e ∈ w := by
      intro e he
      rcases List.mem_append.1 he with he | he
      · exact hsw e he
      · rw [List.mem_singleton.1 he]; exact hi
    have fin : ∀ b', (∀ x ∈ (seen ++ [i]) ++ v, ok T strict args x = true → ¬ lt args.length x b') →
        ∀ x ∈ seen ++ i :: v, ok T strict args x = true → ¬ lt args.length x b' := by
      intro b' h x hx
      exact h x (by simpa using hx)
    cases h : ok T strict args i with
    | false =>
      rw [scan_skip hbot h]
      obtain ⟨b', h1, h2, h3, h4⟩ := scan_best hbot w htr v (seen ++ [i]) b hv' hsw' hb hok (by
        intro x hx hx'
        rcases List.mem_append.1 hx with hx | hx
        · exact hs x hx hx'
        · rw [List.mem_singleton.1 hx, h] at hx'; cases hx')
      exact ⟨b', h1, h2, h3, fin b' h4⟩
    | true =>
      rw [scan_hit hbot h]
      simp only
      split
      · rename_i g
        simp only [Bool.and_eq_true, Bool.not_eq_true'] at g
        obtain ⟨b', h1, h2, h3, h4⟩ := scan_best hbot w htr v (seen ++ [i]) i hv' hsw' hi h (by
          intro x hx hx' hl
          rcases List.mem_append.1 hx with hx | hx
          · refine hs x hx hx' ⟨htr x (hsw x hx) i hi b hb hx' h hok hl.1 g.1, ?_⟩
            by_contra hc
            have := htr b hb x (hsw x hx) i hi hok hx' h (by simpa using hc) hl.1
            rw [g.2] at this; cases this
          · rw [List.mem_singleton.1 hx] at hl
            exact absurd (hl.1.symm.trans hl.2) (by decide))
        exact ⟨b', h1, h2, h3, fin b' h4⟩
      · rename_i g
        obtain ⟨b', h1, h2, h3, h4⟩ := scan_best hbot w htr v (seen ++ [i]) b hv' hsw' hb hok (by
          intro x hx hx' hl
          rcases List.mem_append.1 hx with hx | hx
          · exact hs x hx hx' hl
          · rw [List.mem_singleton.1 hx] at hl
            exact g (by simp [hl.1, hl.2]))
        exact ⟨b', h1, h2, h3, fin b' h4⟩

theorem scan_fill {T : Tab} {strict : Bool} {args : List Ty} (hbot : ∀ a ∈ args, a.bt ≠ .bot) (w : List Entry)
    (htr : ∀ x ∈ w, ∀ y ∈ w, ∀ z ∈ w, ok T strict args x = true → ok T strict args y = true → ok T strict args z = true →
      atLeast x.t y.t args.length = true → atLeast y.t z.t args.length = true → atLeast x.t z.t args.length = true) :
    ∀ (v : List Entry), (∀ e ∈ v, e ∈ w) →
      (scan T strict args true v ⟨[], .none, false⟩ = ⟨[], .none, false⟩ ∧ ∀ x ∈ v, ok T strict args x = false) ∨
      ∃ b', scan T strict args true v ⟨[], .none, false⟩ = ⟨[], some b', false⟩ ∧ b' ∈ w ∧ ok T strict args b' = true ∧
        ∀ x ∈ v, ok T strict args x = true → ¬ lt args.length x b'
  | [], _ => .inl ⟨rfl, by simp⟩
  | i :: v, hv => by
    have hi := hv i (.head _)
    have hv' : ∀ e ∈ v, e ∈ w := fun e he => hv e (.tail _ he)
    cases h : ok T strict args i with
    | false =>
      rw [scan_skip hbot h]
      rcases scan_fill hbot w htr v hv' with ⟨h1, h2⟩ | ⟨b', h1, h2, h3, h4⟩
      · refine .inl ⟨h1, ?_⟩
        intro x hx
        rcases List.mem_cons.1 hx with rfl | hx
        · exact h
        · exact h2 x hx
      · refine .inr ⟨b', h1, h2, h3, ?_⟩
        intro x hx hx'
        rcases List.mem_cons.1 hx with rfl | hx
        · rw [h] at hx'; cases hx'
        · exact h4 x hx hx'
    | true =>
      rw [scan_hit hbot h]
      right
      obtain ⟨b', h1, h2, h3, h4⟩ := scan_best hbot w htr v [i] i hv' (by simpa using hi) hi h (by
        intro x hx _ hl
        rw [List.mem_singleton.1 hx] at hl
        exact absurd (hl.1.symm.trans hl.2) (by decide))
      exact ⟨b', h1, h2, h3, by simpa using h4⟩

theorem atLeast_iff {f g : Fn} {n : Nat} (hf : ∀ t ∈ f.tys, t.structBT = false) :
    atLeast f.tys g.tys n = true ↔ AtLeastAsSpecific f g n := by
  unfold atLeast AtLeastAsSpecific
  rw [zip_all (p := fun a b => a.eq b || isSub true a b)]
  have key : ∀ (j : Nat) (a b : Ty), f.tys[j]? = some a →
      ((a.eq b || isSub true a b) = true ↔ (a.bt = b.bt ∧ a.var = b.var ∧ a.set = b.set ∧ a.opt = b.opt ∧ a.dim = b.dim) ∨ isSub true a b = true) := by
    intro j a b ha
    have := hf a (List.mem_of_getElem? ha)
    simp only [Bool.or_eq_true, Ty.eq, this, Bool.not_false, Bool.true_or, Bool.and_true, Bool.and_eq_true, beq_iff_eq]
    tauto
  constructor
  · intro h j a b hj ha hb
    refine (key j a b ha).1 (h j a b ?_ ?_)
    · rw [List.getElem?_take_of_lt hj]; exact ha
    · rw [List.getElem?_take_of_lt hj]; exact hb
  · intro h j a b ha hb
    rw [List.getElem?_take] at ha hb
    split at ha
    · rename_i hj
      rw [if_pos hj] at hb
      exact (key j a b ha).2 (h j a b hj ha hb)
    · cases ha

/-- A strictly more specific entry of the same number of parameters is ordered before. -/
theorem cmpArgs_of_more : ∀ (as bs : List Ty), as.length = bs.length →
    ((List.zip as bs).all fun p => p.1.eq p.2 || isSub true p.1 p.2) = true →
    ((List.zip bs as).all fun p => p.1.eq p.2 || isSub true p.1 p.2) = false → cmpArgs as bs = true
  | [], [], _, _, h => by simp at h
  | [], _ :: _, h, _, _ => by simp at h
  | _ :: _, [], h, _, _ => by simp at h
  | a :: as, b :: bs, hl, h1, h2 => by
    rw [List.zip_cons_cons, List.all_cons, Bool.and_eq_true, Bool.or_eq_true] at h1
    rw [List.zip_cons_cons, List.all_cons] at h2
    rw [cmpArgs]
    split
    · rename_i he
      refine cmpArgs_of_more as bs (by simpa using hl) h1.2 ?_
      have : b.eq a = true := by
        have := tysEq_symm (a := [a]) (b := [b]) (by simp [tysEq, he])
        simpa [tysEq] using this
      simpa [this] using h2
    · rename_i he
      rw [if_pos (h1.1.resolve_left he)]

theorem viable_len {T : Tab} {strict : Bool} {args : List Ty} {e : Entry} (h : ok T strict args e = true) : args.length ≤ e.t.length := by
  unfold ok viable at h
  simp only [Bool.and_eq_true, decide_eq_true_eq] at h
  exact h.1.1

theorem key_len {e e' : Entry} (h : e.key ≤ e'.key) : e.t.length ≤ e'.t.length := by
  unfold Entry.key at h
  by_contra hc
  have : (e'.t.length :: e'.t.map Overload.key) < (e.t.length :: e.t.map Overload.key) := by
    rw [List.cons_lt_cons_iff]; exact .inl (by omega)
  exact absurd h (not_le.2 this)

theorem sorted_last : ∀ {v : List Entry} {l : Entry}, v.Pairwise (fun a b => a.key ≤ b.key) → v.getLast? = some l →
    ∀ e ∈ v, e.t.length ≤ l.t.length := by
  intro v l hs hl e he
  obtain ⟨ys, rfl⟩ := List.getLast?_eq_some_iff.1 hl
  rcases List.mem_append.1 he with he | he
  · rw [List.pairwise_append] at hs
    exact key_len (hs.2.2 e he l (by simp))
  · rw [List.mem_singleton.1 he]

/-- `matchCall` without an argument of type `bot`. -/
theorem matchCall_eq {T : Tab} {strict : Bool} {args : List Ty} {v : List Entry} {f : Fn} (hbot : ∀ a ∈ args, a.bt ≠ .bot)
    (h : matchCall T strict v args = .fn f) (hm : ∀ fill, (scan T strict args fill v {}).matched = []) :
    ∃ e, e.fi = f ∧ (scan T strict args (match v.getLast? with | some e => decide (e.t.length > args.length) | .none => false) v {}).best = some e := by
  unfold matchCall at h
  simp only at h
  split at h
  · rename_i e he
    split at h
    · cases h
    · simp only [Found.fn.injEq] at h
      exact ⟨e, h, he⟩
  · rw [hm] at h
    cases h

theorem scan_matched {T : Tab} {strict : Bool} {args : List Ty} (hbot : ∀ a ∈ args, a.bt ≠ .bot) {fill : Bool} : ∀ (v : List Entry) (b : Option Entry),
    (scan T strict args fill v ⟨[], b, false⟩).matched = []
  | [], _ => rfl
  | i :: v, b => by
    cases h : ok T strict args i with
    | false => rw [scan_skip hbot h]; exact scan_matched hbot v b
    | true =>
      rw [scan_hit hbot h]
      split
      · split
        · exact scan_matched hbot v _
        · rfl
      · split
        · exact scan_matched hbot v _
        · exact scan_matched hbot v _

/-- **C61**. The function a call is resolved to is one of the declared functions and accepts the arguments. -/
theorem _root_.MZ.C61_accepts {T : Tab} {strict : Bool} {fs : List Fn} {v : List Entry} {args : List Ty} {f : Fn}
    (hb : Built fs v) (hids : Ids fs) (h : matchCall T strict v args = .fn f) : f ∈ fs ∧ Accepts T strict f args := by
  have hi := built_inv hb hids
  have fin : ∀ e ∈ v, ok T strict args e = true → e.fi ∈ fs ∧ Accepts T strict e.fi args := by
    intro e he hok
    obtain ⟨h1, h2⟩ := hi.src e he
    rw [h1] at hok
    exact ⟨h2, ok_iff.1 hok⟩
  unfold matchCall at h
  simp only at h
  have hs := fun fill => scan_sound (T := T) (strict := strict) (args := args) (fill := fill) v {} v (fun e he => he) (by simp) (by simp)
  split at h
  · rename_i e he
    split at h
    · cases h
    · simp only [Found.fn.injEq] at h
      obtain ⟨g1, g2⟩ := (hs _).1 e he
      exact h ▸ fin e g1 g2
  · split at h
    · cases h
    · rename_i g gs hg
      split at h
      · simp only [Found.fn.injEq] at h
        obtain ⟨e, g1, g2, g3⟩ := (hs _).2 g (by rw [hg]; exact .head _)
        have := fin e g1 g3
        rw [g2, h] at this
        exact this
      · cases h

theorem scan_found {T : Tab} {strict : Bool} {args : List Ty} {fill : Bool} : ∀ (w : List Entry) (s : Scan),
    (s.best.isSome ∨ s.matched ≠ [] ∨ ∃ x ∈ w, ok T strict args x = true) →
    (scan T strict args fill w s).best.isSome ∨ (scan T strict args fill w s).matched ≠ []
  | [], s, h => by
    rcases h with h | h | ⟨x, hx, -⟩
    · exact .inl h
    · exact .inr h
    · cases hx
  | i :: w, s, h => by
    have skip : ok T strict args i = false → s.best.isSome ∨ s.matched ≠ [] ∨ ∃ x ∈ w, ok T strict args x = true := by
      intro hi
      refine h.imp id (Or.imp id ?_)
      rintro ⟨x, hx, hx'⟩
      rcases List.mem_cons.1 hx with rfl | hx
      · rw [hi] at hx'; cases hx'
      · exact ⟨x, hx, hx'⟩
    rw [scan]
    split
    · rename_i h1
      simp only
      split
      · split
        · exact scan_found w _ (.inr (.inl (by simp)))
        · split
          · split
            · exact scan_found w _ (.inl rfl)
            · exact .inl rfl
          · rename_i b hb
            split
            · exact scan_found w _ (.inl rfl)
            · exact scan_found w _ (.inl (by simp [hb]))
      · rename_i h2
        refine scan_found w _ (skip ?_)
        unfold ok
        rw [h1, ← argScan_fst T strict args i.t s.bot]
        simpa using h2
    · rename_i h1
      refine scan_found w _ (skip ?_)
      unfold ok
      simp [h1]

/-- **C61**. A call that some declaration accepts is resolved, or reported as ambiguous. -/
theorem _root_.MZ.C61_found {T : Tab} {strict : Bool} {fs : List Fn} {v : List Entry} {args : List Ty} {g : Fn}
    (hb : Built fs v) (hids : Ids fs) (hg : Final fs g) (ha : Accepts T strict g args) :
    matchCall T strict v args ≠ .none := by
  have hi := built_inv hb hids
  have hf := fun fill => scan_found (T := T) (strict := strict) (args := args) (fill := fill) v {} (.inr (.inr ⟨_, hg.mem hi, ok_iff.2 ha⟩))
  unfold matchCall
  simp only
  split
  · split <;> simp
  · rename_i hn
    split
    · rename_i hm
      rcases hf (match v.getLast? with | some e => decide (e.t.length > args.length) | .none => false) with h | h
      · exact absurd (hn ▸ h) (by simp)
      · exact absurd hm h
    · split <;> simp

theorem argScan_bot (T : Tab) (strict : Bool) : ∀ (as ps : List Ty) (b : Bool), (argScan T strict as ps b).1 = true →
    (b = true ∨ ∃ (j : Nat) (a p : Ty), as[j]? = some a ∧ ps[j]? = some p ∧ a.bt = .bot ∧ p.bt ≠ .top) →
    (argScan T strict as ps b).2 = true
  | [], ps, b, _, h => by
    rcases h with h | ⟨j, a, p, h, -⟩
    · simpa [argScan] using h
    · simp at h
  | _ :: _, [], b, _, h => by
    rcases h with h | ⟨j, a, p, -, h, -⟩
    · simpa [argScan] using h
    · simp at h
  | a :: as, p :: ps, b, h1, h => by
    rw [argScan] at h1 ⊢
    split
    · rename_i g; rw [if_pos g] at h1; cases h1
    · rename_i g
      rw [if_neg g] at h1
      refine argScan_bot T strict as ps _ h1 ?_
      rcases h with h | ⟨j, a', p', ha, hp, hb, ht⟩
      · left; simp [h]
      · cases j with
        | zero =>
          simp only [List.getElem?_cons_zero, Option.some.injEq] at ha hp
          left; simp [ha, hp, hb, ht]
        | succ j => exact .inr ⟨j, a', p', by simpa using ha, by simpa using hp, hb, ht⟩

/-- With an argument of type `bot` every matching entry is recorded. -/
theorem scan_all {T : Tab} {strict : Bool} {args : List Ty} {fill : Bool} : ∀ (v : List Entry) (s : Scan),
    (∀ e ∈ v, args.length ≤ e.t.length → ∃ (j : Nat) (a p : Ty), args[j]? = some a ∧ e.t[j]? = some p ∧ a.bt = .bot ∧ p.bt ≠ .top) →
    s.best = .none →
    (scan T strict args fill v s).best = .none ∧
    (scan T strict args fill v s).matched = s.matched ++ (v.filter (ok T strict args)).map (·.fi)
  | [], s, _, hb => ⟨hb, by simp [scan]⟩
  | i :: v, s, hv, hb => by
    have hv' : ∀ e ∈ v, args.length ≤ e.t.length →
        ∃ (j : Nat) (a p : Ty), args[j]? = some a ∧ e.t[j]? = some p ∧ a.bt = .bot ∧ p.bt ≠ .top := fun e he => hv e (.tail _ he)
    rw [scan]
    split
    · rename_i h1
      have hl : args.length ≤ i.t.length := by
        unfold viable at h1
        simp only [Bool.and_eq_true, decide_eq_true_eq] at h1
        exact h1.1
      simp only
      split
      · rename_i h2
        have hok : ok T strict args i = true := by
          unfold ok
          rw [h1, ← argScan_fst T strict args i.t s.bot, h2]; rfl
        rw [if_pos (argScan_bot T strict args i.t s.bot h2 (.inr (hv i (.head _) hl)))]
        obtain ⟨g1, g2⟩ := scan_all (T := T) (strict := strict) (fill := fill) v
          { matched := s.matched ++ [i.fi], best := s.best, bot := (argScan T strict args i.t s.bot).2 } hv' hb
        exact ⟨g1, by rw [g2, List.filter_cons_of_pos hok]; simp⟩
      · rename_i h2
        have hok : ok T strict args i = false := by
          unfold ok
          rw [h1, ← argScan_fst T strict args i.t s.bot]
          simpa using h2
        obtain ⟨g1, g2⟩ := scan_all (T := T) (strict := strict) (fill := fill) v
          { matched := s.matched, best := s.best, bot := (argScan T strict args i.t s.bot).2 } hv' hb
        exact ⟨g1, by rw [g2, List.filter_cons_of_neg (by simp [hok])]⟩
    · rename_i h1
      have hok : ok T strict args i = false := by
        unfold ok
        simp [h1]
      obtain ⟨g1, g2⟩ := scan_all (T := T) (strict := strict) (fill := fill) v s hv' hb
      exact ⟨g1, by rw [g2, List.filter_cons_of_neg (by simp [hok])]⟩

/-- **C61**. A call with an empty array or an absent value (type `bot`) is resolved only if the choice does not matter for the type: the
result can be used wherever the result of another declaration that accepts the arguments can be used. -/
theorem _root_.MZ.C61_bottom {T : Tab} {strict : Bool} {fs : List Fn} {v : List Entry} {args : List Ty} {f g : Fn}
    (hb : Built fs v) (hids : Ids fs) (hbot : ∃ a ∈ args, a.bt = .bot) (htop : ∀ f ∈ fs, ∀ t ∈ f.tys, t.bt ≠ .top)
    (h : matchCall T strict v args = .fn f) (hg : Final fs g) (ha : Accepts T strict g args) :
    g = f ∨ envSub T strict (mkPar f.ret) g.ret = true := by
  have hi := built_inv hb hids
  obtain ⟨a, ham, hab⟩ := hbot
  obtain ⟨j, hj, rfl⟩ := List.getElem_of_mem ham
  have hall := fun fill => scan_all (T := T) (strict := strict) (args := args) (fill := fill) v {} (by
    intro e he hl
    obtain ⟨h1, h2⟩ := hi.src e he
    refine ⟨j, args[j], e.t[j], List.getElem?_eq_getElem hj, List.getElem?_eq_getElem (by omega), hab, ?_⟩
    have : e.t = e.fi.tys := by rw [h1]; rfl
    exact htop _ h2 _ (this ▸ List.getElem_mem _)) rfl
  have hgm : g ∈ (v.filter (ok T strict args)).map (·.fi) :=
    List.mem_map.2 ⟨g.entry, List.mem_filter.2 ⟨hg.mem hi, ok_iff.2 ha⟩, rfl⟩
  unfold matchCall at h
  simp only at h
  rw [(hall _).1, (hall _).2] at h
  simp only [List.nil_append] at h
  split at h
  · cases h
  · rename_i f' fs' heq
    rw [heq] at hgm
    split at h
    · rename_i hal
      simp only [Found.fn.injEq] at h
      rw [List.all_eq_true] at hal
      subst h
      rcases List.mem_cons.1 hgm with rfl | hgm
      · exact .inl rfl
      · exact .inr (hal g hgm)
    · cases h

theorem first_specific {T : Tab} {strict : Bool} {fs : List Fn} {v : List Entry} {args : List Ty} {f g : Fn}
    (hb : Built fs v) (hids : Ids fs) (hm : NoMixFns fs) (hlen : ∀ e ∈ v, e.t.length ≤ args.length)
    (hbot : ∀ a ∈ args, a.bt ≠ .bot) (h : matchCall T strict v args = .fn f)
    (hg : Final fs g) (ha : Accepts T strict g args) : ¬ MoreSpecific g f args.length := by
  have hi := built_inv hb hids
  have hnm := hi.noMix hm
  obtain ⟨e, he, hbest⟩ := matchCall_eq hbot h fun fill => scan_matched hbot v _
  have hfill : (match v.getLast? with | some e => decide (e.t.length > args.length) | .none => false) = false := by
    split
    · rename_i l hl
      have := hlen l (List.mem_of_getLast? hl)
      simp only [decide_eq_false_iff_not]
      omega
    · rfl
  rw [hfill, show ({} : Scan) = ⟨[], .none, false⟩ from rfl, scan_first hbot] at hbest
  have hmem := List.mem_of_find?_eq_some hbest
  obtain ⟨h1, h2⟩ := hi.src e hmem
  obtain ⟨as, bs, hv, has⟩ := (List.find?_eq_some_iff_append.1 hbest).2
  have hoke := (List.find?_eq_some_iff_append.1 hbest).1
  have hgm0 := hg.mem hi
  have hgm := hgm0
  have hgo := ok_iff.2 ha
  rw [hv] at hgm
  rintro ⟨m1, m2⟩
  have str : ∀ f ∈ fs, ∀ t ∈ f.tys, t.structBT = false := fun f hf t ht =>
    (hm.1 f.entry (List.mem_map_of_mem hf) t ht).not_struct
  have a1 := (atLeast_iff (str g hg.1)).2 m1
  have a2 : atLeast f.tys g.tys args.length = false := by
    by_contra hc
    exact m2 ((atLeast_iff (str f (he ▸ h2))).1 (by simpa using hc))
  rcases List.mem_append.1 hgm with hgm | hgm
  · have := has _ hgm
    rw [hgo] at this
    cases this
  · rcases List.mem_cons.1 hgm with hgm | hgm
    · have : g = f := by rw [← he, ← hgm]; rfl
      rw [this] at a1
      rw [this, a1] at a2
      cases a2
    · have hsort := built_sorted hb hids hm
      rw [hv, List.pairwise_append, List.pairwise_cons] at hsort
      have hle := hsort.2.1.1 _ hgm
      have lf : f.tys.length = args.length := by
        have := viable_len hoke
        have x := hlen e hmem
        have : e.t = f.tys := by rw [h1, he]; rfl
        rw [← this]; omega
      have lg : g.tys.length = args.length := by
        have := viable_len hgo
        have x := hlen g.entry hgm0
        simp only [Fn.entry] at this x
        omega
      have hc : compare g.entry e = true := by
        rw [h1, he]
        unfold compare Fn.entry
        simp only [lf, lg, lt_irrefl, if_false, if_true]
        unfold atLeast at a1 a2
        rw [List.take_of_length_le (by omega), List.take_of_length_le (by omega)] at a1 a2
        exact cmpArgs_of_more _ _ (by omega) a1 a2
      rw [compare_iff hnm hgm0 hmem] at hc
      exact absurd hc (not_lt.2 hle)

/-- **C61**. If no overload has more parameters than the call has arguments, no other declaration that accepts the arguments is more
specific than the function the call is resolved to. -/
theorem _root_.MZ.C61_most_specific_partial {T : Tab} {strict : Bool} {fs : List Fn} {v : List Entry} {args : List Ty} {f g : Fn}
    (hb : Built fs v) (hids : Ids fs) (hm : NoMixFns fs) (hlen : ∀ f ∈ fs, f.params.length ≤ args.length)
    (hbot : ∀ a ∈ args, a.bt ≠ .bot) (h : matchCall T strict v args = .fn f)
    (hg : Final fs g) (ha : Accepts T strict g args) : ¬ MoreSpecific g f args.length := by
  refine first_specific hb hids hm ?_ hbot h hg ha
  intro e he
  obtain ⟨h1, h2⟩ := (built_inv hb hids).src e he
  have := hlen e.fi h2
  rw [h1]
  simpa only [Fn.entry, tys_length] using this

/-- At every place of the parameter lists, scalars of the same base type belong to the same enumeration. -/
def Uniform (fs : List Fn) : Prop :=
  ∀ f ∈ fs, ∀ g ∈ fs, ∀ (j : Nat) (a b : Ty), f.tys[j]? = some a → g.tys[j]? = some b → a.dim = 0 → b.dim = 0 → a.bt = b.bt →
    a.typeId = b.typeId

theorem spec_iff {a b : Ty} (ha : Ground a) (hb : Ground b) (hu : a.dim = 0 → b.dim = 0 → a.bt = b.bt → a.typeId = b.typeId) :
    (a.eq b || isSub true a b) = true ↔ isSub false a b = true := by
  rw [Bool.or_eq_true, C17_subtype_iff ha hb, C17_subtype_iff ha hb]
  have hs : a.structBT = false := by
    rcases ha.base with h | h | h | h | h <;> simp [Ty.structBT, h]
  have he : a.eq b = true ↔ a.bt = b.bt ∧ a.var = b.var ∧ a.set = b.set ∧ a.opt = b.opt ∧ a.dim = b.dim := by
    simp only [Ty.eq, hs, Bool.not_false, Bool.true_or, Bool.and_true, Bool.and_eq_true, beq_iff_eq]
    tauto
  rw [he]
  unfold SubSpec BaseLe
  constructor
  · rintro (⟨h1, h2, h3, h4, h5⟩ | h | ⟨h1, h2, h3⟩)
    · exact .inr ⟨.inl h5, .inl ⟨h1, by simp⟩, h3, fun e => h2 ▸ e, fun e => h4 ▸ e⟩
    · exact .inl h
    · exact .inr ⟨h1, h2.imp (fun g => ⟨g.1, by simp⟩) id, h3⟩
  · rintro (h | ⟨h1, h2, h3⟩)
    · exact .inr (.inl h)
    · refine .inr (.inr ⟨h1, ?_, h3⟩)
      rcases h2 with ⟨e, -⟩ | h2
      · refine .inl ⟨e, fun _ hd => ?_⟩
        rcases h1 with h1 | h1
        · exact .inl (hu hd (h1 ▸ hd) e)
        · exact absurd hd h1.1
      · exact .inr h2

/-- **C61**. Also when parameters are filled with defaults, no other declaration that accepts the arguments is more specific, on the
supplied arguments, than the function the call is resolved to. -/
theorem _root_.MZ.C61_most_specific_default_partial {T : Tab} {strict : Bool} {fs : List Fn} {v : List Entry} {args : List Ty} {f g : Fn}
    (hb : Built fs v) (hids : Ids fs) (hm : NoMixFns fs) (hgr : ∀ f ∈ fs, ∀ t ∈ f.tys, Ground t) (hu : Uniform fs)
    (hbot : ∀ a ∈ args, a.bt ≠ .bot) (h : matchCall T strict v args = .fn f)
    (hg : Final fs g) (ha : Accepts T strict g args) : ¬ MoreSpecific g f args.length := by
  have hi := built_inv hb hids
  by_cases hlen : ∀ e ∈ v, e.t.length ≤ args.length
  · exact first_specific hb hids hm hlen hbot h hg ha
  · push_neg at hlen
    obtain ⟨x, hx, hxl⟩ := hlen
    have hsort := built_sorted hb hids hm
    obtain ⟨e, he, hbest⟩ := matchCall_eq hbot h fun fill => scan_matched hbot v _
    have hfill : (match v.getLast? with | some e => decide (e.t.length > args.length) | .none => false) = true := by
      split
      · rename_i l hl
        have := sorted_last hsort hl x hx
        simp only [decide_eq_true_eq]
        omega
      · rename_i hl
        rw [List.getLast?_eq_none_iff] at hl
        rw [hl] at hx
        cases hx
    have htr : ∀ x ∈ v, ∀ y ∈ v, ∀ z ∈ v, ok T strict args x = true → ok T strict args y = true → ok T strict args z = true →
        atLeast x.t y.t args.length = true → atLeast y.t z.t args.length = true → atLeast x.t z.t args.length = true := by
      intro x hx y hy z hz ox oy oz hxy hyz
      have lx := viable_len ox
      have ly := viable_len oy
      have lz := viable_len oz
      obtain ⟨x1, x2⟩ := hi.src x hx
      obtain ⟨y1, y2⟩ := hi.src y hy
      obtain ⟨z1, z2⟩ := hi.src z hz
      have ex : x.t = x.fi.tys := by rw [x1]; rfl
      have ey : y.t = y.fi.tys := by rw [y1]; rfl
      have ez : z.t = z.fi.tys := by rw [z1]; rfl
      unfold atLeast at *
      rw [zip_all (p := fun a b => a.eq b || isSub true a b)] at *
      intro j a c hja hjc
      have hj : j < args.length := by
        by_contra hc
        rw [List.getElem?_take, if_neg hc] at hja
        cases hja
      obtain ⟨b, hjb⟩ : ∃ b, y.t[j]? = some b := ⟨y.t[j], List.getElem?_eq_getElem (by omega)⟩
      have hjb' : (y.t.take args.length)[j]? = some b := by rw [List.getElem?_take_of_lt hj]; exact hjb
      have r1 := hxy j a b hja hjb'
      have r2 := hyz j b c hjb' hjc
      rw [List.getElem?_take_of_lt hj] at hja hjc
      rw [ex] at hja
      rw [ey] at hjb
      rw [ez] at hjc
      have ga := hgr _ x2 a (List.mem_of_getElem? hja)
      have gb := hgr _ y2 b (List.mem_of_getElem? hjb)
      have gc := hgr _ z2 c (List.mem_of_getElem? hjc)
      rw [spec_iff ga gb (hu _ x2 _ y2 j a b hja hjb)] at r1
      rw [spec_iff gb gc (hu _ y2 _ z2 j b c hjb hjc)] at r2
      rw [spec_iff ga gc (hu _ x2 _ z2 j a c hja hjc)]
      exact C17_trans ga gb gc r1 r2
    rw [hfill, show ({} : Scan) = ⟨[], .none, false⟩ from rfl] at hbest
    rcases scan_fill hbot v htr v (fun e he => he) with ⟨h1, -⟩ | ⟨b', h1, h2, h3, h4⟩
    · rw [h1] at hbest; cases hbest
    · rw [h1] at hbest
      simp only [Option.some.injEq] at hbest
      subst hbest
      obtain ⟨g1, g2⟩ := hi.src b' h2
      rintro ⟨m1, m2⟩
      refine h4 g.entry (hg.mem hi) (ok_iff.2 ha) ?_
      have str : ∀ f ∈ fs, ∀ t ∈ f.tys, t.structBT = false := fun f hf t ht =>
        (hm.1 f.entry (List.mem_map_of_mem hf) t ht).not_struct
      have e1 : b'.t = f.tys := by rw [g1, he]; rfl
      unfold lt
      rw [e1]
      refine ⟨(atLeast_iff (str g hg.1)).2 m1, ?_⟩
      by_contra hc
      exact m2 ((atLeast_iff (str f (he ▸ g2))).1 (Bool.not_eq_false _ ▸ hc))

end Overload
end MZ
