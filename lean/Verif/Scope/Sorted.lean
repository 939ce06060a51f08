import Verif.Scope.Props
/-!
# C62: the order of the items after the pass
-/
namespace MZ
namespace Scope

/-- The position a declaration has got (`VarDecl::payload`, set in 1359). -/
def payload (s : S) (d : Nat) : Nat :=
  match s.pos d with
  | some (some k) => k
  | _ => 0

/-- lib/typecheck.cpp 4972–4985 `SortByPayload`. Include items are not modelled. -/
def sbp (s : S) : Item → Item → Bool
  | .decl c, .decl c' => payload s c.d < payload s c'.d
  | .decl _, _ => true
  | _, _ => false

/-- 4987: `std::stable_sort`, whose result is determined by the comparison. -/
def sortItems (s : S) (is : List Item) : List Item := is.mergeSort fun a b => !sbp s b a

def isDecl : Item → Bool
  | .decl _ => true
  | _ => false

theorem sbp_trans (s : S) (a b c : Item) (h1 : (!sbp s b a) = true) (h2 : (!sbp s c b) = true) : (!sbp s c a) = true := by
  cases a <;> cases b <;> cases c <;> simp_all [sbp]
  omega

theorem sbp_total (s : S) (a b : Item) : (!sbp s b a || !sbp s a b) = true := by
  cases a <;> cases b <;> simp [sbp]
  omega

/-- **C62**. After the pass the declarations come first, each after the global declarations that its type, definition and annotations
mention; the other items follow in their order. -/
theorem _root_.MZ.C62_sorted {n : Nat} {is : List Item} {s : S} (hd : Distinct is) (h : sorter n is = .ok s) :
    (sortItems s is).Perm is ∧
    (sortItems s is).filter (fun i => !isDecl i) = is.filter (fun i => !isDecl i) ∧
    (∀ (i j : Nat) a b, (sortItems s is)[i]? = some a → (sortItems s is)[j]? = some b → isDecl a = true → isDecl b = false → i < j) ∧
    ∀ c k, Item.decl c ∈ is → Item.decl k ∈ is → Refers is c.d k.d →
      ∃ i j : Nat, (sortItems s is)[i]? = some (.decl k) ∧ (sortItems s is)[j]? = some (.decl c) ∧ i < j := by
  have hp : (sortItems s is).Perm is := List.mergeSort_perm _ _
  have hs : (sortItems s is).Pairwise fun a b => (!sbp s b a) = true := List.pairwise_mergeSort (sbp_trans s) (sbp_total s) is
  have hij : ∀ (i j : Nat) a b, (sortItems s is)[i]? = some a → (sortItems s is)[j]? = some b → sbp s a b = true → i < j := by
    intro i j a b ha hb hlt
    obtain ⟨hi, rfl⟩ := List.getElem?_eq_some_iff.1 ha
    obtain ⟨hj, rfl⟩ := List.getElem?_eq_some_iff.1 hb
    rcases Nat.lt_trichotomy i j with g | g | g
    · exact g
    · subst g
      generalize (sortItems s is)[i] = a at hlt
      cases a <;> simp [sbp] at hlt
    · have := List.pairwise_iff_getElem.1 hs j i hj hi g
      rw [hlt] at this
      simp at this
  refine ⟨hp, ?_, ?_, ?_⟩
  · have hsub : (is.filter fun i => !isDecl i).Sublist (sortItems s is) := by
      refine List.sublist_mergeSort (sbp_trans s) (sbp_total s) ?_ List.filter_sublist
      rw [List.pairwise_filter]
      refine List.pairwise_of_forall fun a b _ hb => ?_
      cases b <;> simp_all [sbp, isDecl]
    have h1 := hsub.filter (fun i => !isDecl i)
    rw [List.filter_filter] at h1
    simp only [Bool.and_self] at h1
    exact (h1.eq_of_length (hp.filter _).length_eq.symm).symm
  · intro i j a b ha hb h1 h2
    refine hij i j a b ha hb ?_
    cases a <;> cases b <;> simp_all [isDecl, sbp]
  · intro c k hc hk hr
    obtain ⟨i, hi⟩ := List.getElem?_of_mem (hp.mem_iff.2 hk)
    obtain ⟨j, hj⟩ := List.getElem?_of_mem (hp.mem_iff.2 hc)
    refine ⟨i, j, hi, hj, hij i j _ _ hi hj ?_⟩
    obtain ⟨m, p, -⟩ := sorter_ok hd h
    obtain ⟨-, -, ho⟩ := C62_order hd h
    obtain ⟨x, y, a1, a2, a3⟩ := ho _ _ hr
    have e1 := p.inv.decls' _ _ a1
    have e2 := p.inv.decls' _ _ a2
    simp [sbp, payload, e1, e2, a3]

/-- In the example of `Props`, `z` (declared second) goes before `y` (declared first), which goes before `x` and the constraint. -/
example : ∃ s, sorter 3 exItems = .ok s ∧ ∃ y z x k f, exItems = [y, z, x, k, f] ∧ sbp s z y = true ∧ sbp s y x = true ∧ sbp s x k = true ∧
    sbp s f k = false ∧ sbp s k f = false := ⟨_, rfl, _, _, _, _, _, rfl, rfl, rfl, rfl, rfl, rfl⟩

end Scope
end MZ
