import Verif.Enums.Layout

/-! The printed text of a value is the text of the value that the declaration has at its position. -/

namespace MZ
namespace Enums

/-- The values of the types `< n` are printed correctly. -/
def TextOk (es : List Enum) (vs : List (List Val)) (m : Mode) (n : Nat) : Prop :=
  ∀ (k : Nat) (e : Enum) (v : List Val), k < n → es[k]? = some e → vs[k]? = some v →
    ∀ (i : Nat) (x : Val), v[i]? = some x → e.text m.b m.j (some ((i : Int) + 1)) = some (x.text m)

theorem anon_text (X : Str) (v : Int) (m : Mode) (h : m = .dzn → Lex.quoteId X = X) (ub : Int) :
    Gen.text X ub .anon m.b m.j (some v) = some ((Val.anon X v).text m) := by
  simp only [Gen.text]
  unfold anonText
  cases m with
  | plain => rfl
  | dzn =>
    have e : (Val.anon X v).text .dzn = "to_enum(".toList ++ Lex.quoteId X ++ ",".toList ++ Syn.intText v ++ ")".toList := rfl
    rw [e, h rfl]
    rfl
  | json => rfl

/-- The text of the values of one part. -/
theorem part_text {ds es vs} (hR : EnvRel ds es vs) {m : Mode} {n : Nat} (hT : TextOk es vs m n) {X : Str} {off : Nat}
    {p : Part} {g : Gen} (hf : FitsPart es off p g) (hb : p.Before n) (hok : p.Ok vs)
    (hm : m ≠ .plain → ∀ c k s, p ≠ .cons c (.sub k s))
    (hq : m = .dzn → (∃ n, p = .anon n) ∨ (∃ s, p = .anonSet s) → Lex.quoteId X = X)
    {i : Nat} {x : Val} (hx : (partVals vs X off p)[i]? = some x) {ub : Int} (hub : ((off + i + 1 : Nat) : Int) ≤ ub) :
    g.text X ub m.b m.j (some ((off + i + 1 : Nat) : Int)) = some (x.text m) := by
  cases p with
  | ids names =>
    cases g with
    | anon => exact hf.elim
    | cons c => exact hf.elim
    | ids prev names' =>
      obtain ⟨rfl, hp⟩ := hf
      simp only [partVals, List.getElem?_map, Option.map_eq_some_iff] at hx
      obtain ⟨nm, hn, rfl⟩ := hx
      have : minusPrev ((off + i + 1 : Nat) : Int) prev = (i : Int) + 1 := by
        rw [minusPrev_eq, hp]
        push_cast
        omega
      simp only [Gen.text]
      unfold idsText
      simp only [this, access_one, hn, Option.map_some]
      cases m <;> rfl
  | anon k =>
    cases g with
    | ids prev names => exact hf.elim
    | cons c => exact hf.elim
    | anon =>
      simp only [partVals, List.getElem?_map, Option.map_eq_some_iff] at hx
      obtain ⟨j, hj, rfl⟩ := hx
      obtain ⟨hj1, hj2⟩ := List.getElem?_eq_some_iff.1 hj
      rw [List.getElem_range] at hj2
      subst hj2
      exact anon_text X _ m (fun e => hq e (Or.inl ⟨k, rfl⟩)) ub
  | anonSet s =>
    cases g with
    | ids prev names => exact hf.elim
    | cons c => exact hf.elim
    | anon =>
      simp only [partVals, List.getElem?_map, Option.map_eq_some_iff] at hx
      obtain ⟨j, hj, rfl⟩ := hx
      obtain ⟨hj1, hj2⟩ := List.getElem?_eq_some_iff.1 hj
      rw [List.getElem_range] at hj2
      subst hj2
      exact anon_text X _ m (fun e => hq e (Or.inr ⟨s, rfl⟩)) ub
  | cons c a =>
    cases g with
    | ids prev names => exact hf.elim
    | anon => exact hf.elim
    | cons k =>
      obtain ⟨rfl, hat, hres⟩ := hf
      have key : ∃ (e : Int) (y : Val), k.elems[i]? = some e ∧ x = .app k.name y ∧ k.text m.b m.j (some e) = some (y.text m) := by
        cases a with
        | ints s =>
          simp only [resolve, Option.some.injEq, Prod.mk.injEq] at hres
          obtain ⟨h1, h2, h3⟩ := hres
          simp only [partVals, List.getElem?_map, Option.map_eq_some_iff] at hx
          obtain ⟨e, he, rfl⟩ := hx
          refine ⟨e, .int e, by rw [← h1]; exact he, rfl, ?_⟩
          rw [← h3]
          cases m <;> rfl
        | enum j =>
          simp only [resolve, Option.bind_eq_bind, Option.bind_eq_some_iff, Option.some.injEq, Prod.mk.injEq] at hres
          obtain ⟨e, he, h1, h2, h3⟩ := hres
          have hj : j < n := hb
          have hjd : j < ds.length := by rw [← hR.len_es]; exact (List.getElem?_eq_some_iff.1 he).1
          obtain ⟨e', r1, r2, r3, r4, -⟩ := hR.row j _ (List.getElem?_eq_getElem hjd)
          rw [he] at r1
          cases r1
          simp only [partVals, getD_of_some r3, List.getElem?_map, Option.map_eq_some_iff] at hx
          obtain ⟨y, hy, rfl⟩ := hx
          refine ⟨(i : Int) + 1, y, ?_, rfl, ?_⟩
          · rw [← h1, Enum.set, upTo_get, if_pos]
            have := (List.getElem?_eq_some_iff.1 hy).1
            omega
          · rw [← h3]
            exact hT j e _ hj he r3 i y hy
        | sub j s =>
          have hpl : m = .plain := by
            by_contra hc
            exact hm hc _ j s rfl
          subst hpl
          simp only [resolve, Option.bind_eq_bind, Option.bind_eq_some_iff, Option.some.injEq, Prod.mk.injEq] at hres
          obtain ⟨e, he, h1, h2, h3⟩ := hres
          have hj : j < n := hb
          obtain ⟨o1, o2, o3⟩ : j < vs.length ∧ _ := hok
          have hjd : j < ds.length := by rw [← hR.len_vs]; exact o1
          obtain ⟨e', r1, r2, r3, r4, -⟩ := hR.row j _ (List.getElem?_eq_getElem hjd)
          rw [he] at r1
          cases r1
          simp only [partVals, List.getElem?_map, Option.map_eq_some_iff] at hx
          obtain ⟨w, hw, rfl⟩ := hx
          obtain ⟨b1, b2⟩ := o3 w (List.mem_of_getElem? hw)
          rw [getD_of_some r3] at b2 ⊢
          have hwl : (w - 1).toNat < (declVals vs ds[j]).length := by omega
          refine ⟨w, _, by rw [← h1]; exact hw, rfl, ?_⟩
          rw [← h3, getD_of_some (List.getElem?_eq_getElem hwl)]
          have := hT j e _ hj he r3 (w - 1).toNat _ (List.getElem?_eq_getElem hwl)
          have hw1 : ((w - 1).toNat : Int) + 1 = w := by omega
          rw [hw1] at this
          exact this
      obtain ⟨e, y, k1, rfl, k3⟩ := key
      have hinv := inverse_get hat (X := upTo ub) k1 (mem_upTo.2 ⟨by omega, hub⟩)
      simp only [Gen.text]
      unfold consText
      simp only [hinv, k3, Option.bind_some, Option.map_some]
      cases m <;> rfl

theorem laid_length {es : List Enum} {vs : List (List Val)} {X} : ∀ {ps : List Part} {gs : List Gen} {off},
    Laid es vs X off ps gs → gs.length = ps.length
  | [], [], _, _ => rfl
  | _ :: _, _ :: _, _, h => by simp [laid_length h.2]
  | [], _ :: _, _, h => h.elim
  | _ :: _, [], _, h => h.elim

/-- Only the last part may be an empty list of identifiers. -/
def NoGapL (ps : List Part) : Prop := ∀ i, ps[i]? = some (.ids []) → i + 1 = ps.length

theorem noGapL_tail {p : Part} {ps : List Part} (h : NoGapL (p :: ps)) : NoGapL ps := by
  intro i hi
  have := h (i + 1) (by simpa using hi)
  simpa using this

theorem noGapL_head {p q : Part} {ps : List Part} (h : NoGapL (p :: q :: ps)) : p ≠ .ids [] := by
  rintro rfl
  have := h 0 rfl
  simp at this

theorem ext_length {vs : List (List Val)} {X} : ∀ {ps : List Part} {off}, NoGapL ps → ps.length ≤ (ext vs X off ps).length + 1
  | [], _, _ => by simp
  | [p], _, _ => by simp
  | p :: q :: ps, off, h => by
    rw [ext, if_neg (noGapL_head h), List.length_append, List.length_cons, List.length_singleton]
    have := ext_length (vs := vs) (X := X) (ps := q :: ps) (off := off + (partVals vs X off p).length) (noGapL_tail h)
    omega

/-- The conditional over the parts selects the part that the value belongs to. -/
theorem dispatch_text {ds es vs} (hR : EnvRel ds es vs) {m : Mode} {n : Nat} (hT : TextOk es vs m n) {X : Str} {ub : Int} :
    ∀ {ps : List Part} {gs : List Gen} {off : Nat}, Laid es vs X off ps gs → NoGapL ps →
    (∀ p ∈ ps, p.Before n ∧ p.Ok vs) →
    (∀ p ∈ ps, m ≠ .plain → ∀ c k s, p ≠ .cons c (.sub k s)) →
    (∀ p ∈ ps, m = .dzn → (∃ n, p = .anon n) ∨ (∃ s, p = .anonSet s) → Lex.quoteId X = X) →
    ∀ {i : Nat} {x : Val}, (partsVals vs X off ps)[i]? = some x → ((off + i + 1 : Nat) : Int) ≤ ub →
    dispatch ((off + i + 1 : Nat) : Int) (ext vs X off ps) (gs.map (Gen.text X ub)) m.b m.j
      (some ((off + i + 1 : Nat) : Int)) = some (x.text m)
  | [], [], off, _, _, _, _, _, i, x, hx, _ => by simp [partsVals] at hx
  | [], _ :: _, _, h, _, _, _, _, _, _, _, _ => h.elim
  | _ :: _, [], _, h, _, _, _, _, _, _, _, _ => h.elim
  | [p], [g], off, hl, hn, ho, hw, hq, i, x, hx, hub => by
    have hx' : (partVals vs X off p)[i]? = some x := by simpa [partsVals] using hx
    simp only [List.map_cons, List.map_nil, dispatch]
    exact part_text hR hT hl.1 (ho p List.mem_cons_self).1 (ho p List.mem_cons_self).2 (hw p List.mem_cons_self)
      (hq p List.mem_cons_self) hx' hub
  | [_], _ :: _ :: _, _, h, _, _, _, _, _, _, _, _ => h.2.elim
  | _ :: _ :: _, [_], _, h, _, _, _, _, _, _, _, _ => h.2.elim
  | p :: q :: ps, g :: g' :: gs, off, hl, hn, ho, hw, hq, i, x, hx, hub => by
    rw [ext, if_neg (noGapL_head hn)]
    simp only [List.map_cons, List.singleton_append, dispatch]
    rw [partsVals] at hx
    by_cases hi : i < (partVals vs X off p).length
    · rw [List.getElem?_append_left hi] at hx
      rw [if_pos (by omega)]
      exact part_text hR hT hl.1 (ho p List.mem_cons_self).1 (ho p List.mem_cons_self).2 (hw p List.mem_cons_self)
        (hq p List.mem_cons_self) hx hub
    · rw [List.getElem?_append_right (by omega)] at hx
      rw [if_neg (by omega)]
      have e : off + i + 1 = (off + (partVals vs X off p).length) + (i - (partVals vs X off p).length) + 1 := by omega
      rw [e] at hub ⊢
      have := dispatch_text hR hT (ub := ub) hl.2 (noGapL_tail hn) (fun r hr => ho r (List.mem_cons_of_mem _ hr))
        (fun r hr => hw r (List.mem_cons_of_mem _ hr)) (fun r hr => hq r (List.mem_cons_of_mem _ hr)) hx hub
      simpa only [List.map_cons] using this

/-- The printed text of every value of every type. -/
theorem text_ok {ds es vs} (hR : EnvRel ds es vs) {m : Mode} (hg : ∀ d ∈ ds, NoGap d) (hp : ∀ d ∈ ds, d.Prints m) :
    ∀ n, TextOk es vs m n := by
  intro n
  induction n with
  | zero => intro k e v hk; omega
  | succ n ih =>
    intro k e v hk he hv i x hx
    by_cases hlt : k < n
    · exact ih k e v hlt he hv i x hx
    have : k = n := by omega
    subst this
    have hkd : k < ds.length := by rw [← hR.len_es]; exact (List.getElem?_eq_some_iff.1 he).1
    obtain ⟨e', r1, r2, r3, r4, r5, r6, r7⟩ := hR.row k _ (List.getElem?_eq_getElem hkd)
    have hd : ds[k] ∈ ds := List.getElem_mem hkd
    rw [he] at r1
    cases r1
    rw [hv] at r3
    cases r3
    have hgap : NoGapL ds[k].parts := hg _ hd
    have hw : ∀ p ∈ ds[k].parts, m ≠ .plain → ∀ c k' s, p ≠ .cons c (.sub k' s) := by
      intro p hpm hm
      have := hp _ hd
      cases m with
      | plain => exact absurd rfl hm
      | dzn => exact this.1 p hpm
      | json => exact this p hpm
    have hq : ∀ p ∈ ds[k].parts, m = .dzn → (∃ n, p = .anon n) ∨ (∃ s, p = .anonSet s) → Lex.quoteId ds[k].name = ds[k].name := by
      intro p hpm hm hor
      have := hp _ hd
      subst hm
      exact this.2 ⟨p, hpm, hor⟩
    have hil := (List.getElem?_eq_some_iff.1 hx).1
    have hub : ((0 + i + 1 : Nat) : Int) ≤ e.card := by rw [r4]; omega
    have key := dispatch_text hR ih (X := ds[k].name) (ub := e.card) (off := 0) r6 hgap r7 hw hq hx hub
    have e0 : ((0 + i + 1 : Nat) : Int) = (i : Int) + 1 := by push_cast; omega
    rw [e0] at key
    unfold Enum.text
    rw [r2]
    have hlen := laid_length r6
    have hel := ext_length (vs := vs) (X := ds[k].name) (off := 0) hgap
    rw [← r5] at hel key
    generalize hfs : List.map (Gen.text ds[k].name e.card) e.gens = fs at key
    have hfl : fs.length = ds[k].parts.length := by rw [← hfs, List.length_map, hlen]
    match fs, hfl, key with
    | [], _, key => simp [dispatch] at key
    | [f], _, key => simpa [dispatch] using key
    | f :: f' :: fs, hfl, key =>
      simp only
      rw [if_pos (by rw [hfl]; exact hel)]
      exact key

end Enums
end MZ
