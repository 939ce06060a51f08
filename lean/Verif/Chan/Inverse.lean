import Verif.Chan.Model
import Verif.Count.Lemmas

/-! # Channelling constraints -/

namespace MZ.Chan
open MZ.Globals MZ.Chan.Spec

theorem inverse_iff (f g : Arr Int) : fznInverse f g ↔ Inverse f g := by
  constructor
  · rintro ⟨h1, h2⟩
    refine ⟨fun i hi => (h1 i hi).1, fun j hj => (h2 j hj).1, fun i hi j hj => ⟨?_, ?_⟩⟩
    · rintro rfl; exact (h1 i hi).2.2
    · rintro rfl; exact (h2 j hj).2.2
  · rintro ⟨h1, h2, h3⟩
    refine ⟨fun i hi => ⟨h1 i hi, h1 i hi, (h3 i hi _ (h1 i hi)).mp rfl⟩, fun j hj => ⟨h2 j hj, h2 j hj, ?_⟩⟩
    exact (h3 _ (h2 j hj) j hj).mpr rfl

theorem inRangeCore_iff (f g : Arr Int) : inRangeCore f g ↔ InverseInRange f g := by
  constructor
  · rintro ⟨h1, h2⟩ i hi j hj
    constructor
    · rintro rfl; exact (h1 i hi hj).2
    · rintro rfl; exact (h2 j hj hi).2
  · intro h
    exact ⟨fun i hi hv => ⟨hv, (h i hi _ hv).mp rfl⟩, fun j hj hv => ⟨hv, (h _ hv j hj).mpr rfl⟩⟩

theorem ofSet_mem (S : Finset Int) {k : Int} (hk : k ∈ (ofSet S).idx) : ofSet S k ∈ S := by
  rw [Arr.mem_idx] at hk
  dsimp only [ofSet] at hk ⊢
  have hlt : (k - 1).toNat < (S.sort (· ≤ ·)).length := by rw [Finset.length_sort]; omega
  rw [Count.getD_get _ _ hlt]
  exact (Finset.mem_sort _).mp (List.getElem_mem hlt)

theorem ofSet_inj (S : Finset Int) : Count.Spec.AllDifferent (ofSet S) := by
  intro i hi j hj h
  rw [Arr.mem_idx] at hi hj
  dsimp only [ofSet] at hi hj h
  have h1 : (i - 1).toNat < (S.sort (· ≤ ·)).length := by rw [Finset.length_sort]; omega
  have h2 : (j - 1).toNat < (S.sort (· ≤ ·)).length := by rw [Finset.length_sort]; omega
  rw [Count.getD_get _ _ h1, Count.getD_get _ _ h2] at h
  have := (List.Nodup.getElem_inj_iff (Finset.sort_nodup S (· ≤ ·))).mp h
  omega

theorem strengthen_of_inRange (f g : Arr Int) (dom : Int → Finset Int) (hdom : ∀ j ∈ g.idx, g j ∈ dom j)
    (h : InverseInRange f g) : strengthen f g dom := by
  show Count.gcc f (ofSet (g.idx.filter (fun j => dom j ⊆ f.idx))) ⟨1, (g.idx.filter (fun j => dom j ⊆ f.idx)).card, fun _ => 1⟩
  refine (Count.gcc_iff f (ofSet (g.idx.filter (fun j => dom j ⊆ f.idx)))
    ⟨1, (g.idx.filter (fun j => dom j ⊆ f.idx)).card, fun _ => 1⟩ ⟨rfl, rfl⟩ (ofSet_inj _)).mpr ?_
  intro k hk
  have hv := ofSet_mem _ hk
  generalize ofSet (g.idx.filter (fun j => dom j ⊆ f.idx)) k = v at hv
  rw [Finset.mem_filter] at hv
  have hg := hv.2 (hdom v hv.1)
  have hf := (h _ hg v hv.1).mpr rfl
  show (1 : Int) = _
  have : f.idx.filter (fun i => f i = v) = {g v} := by
    ext i
    rw [Finset.mem_filter, Finset.mem_singleton]
    constructor
    · rintro ⟨hi, e⟩; exact ((h i hi v hv.1).mp e).symm
    · rintro rfl; exact ⟨hg, hf⟩
  unfold Count.Spec.occ
  rw [this]; rfl

theorem inverseInRange_iff (f g : Arr Int) (domf domg : Int → Finset Int) (hf : ∀ i ∈ f.idx, f i ∈ domf i)
    (hg : ∀ j ∈ g.idx, g j ∈ domg j) : fznInverseInRange f g domf domg ↔ InverseInRange f g := by
  unfold fznInverseInRange
  rw [inRangeCore_iff]
  refine ⟨fun h => h.1, fun h => ⟨h, strengthen_of_inRange f g domg hg h, strengthen_of_inRange g f domf hf ?_⟩⟩
  intro j hj i hi
  exact (h i hi j hj).symm

theorem inverseOpt_iff (f g : Arr (Option Int)) : fznInverseOpt f g ↔ InverseOpt f g := by
  constructor
  · rintro ⟨-, -, h1, h2⟩
    refine ⟨?_, ?_, fun i hi j hj => ⟨?_, ?_⟩⟩
    · intro i hi v hv
      obtain ⟨w, hw, hm, -⟩ := (h1 i hi).mp (by rw [hv]; rfl)
      rw [hv] at hw
      exact (Option.some.inj hw) ▸ hm
    · intro j hj v hv
      obtain ⟨w, hw, hm, -⟩ := (h2 j hj).mp (by rw [hv]; rfl)
      rw [hv] at hw
      exact (Option.some.inj hw) ▸ hm
    · intro e
      obtain ⟨w, hw, -, hm⟩ := (h1 i hi).mp (by rw [e]; rfl)
      rw [e] at hw
      exact (Option.some.inj hw) ▸ hm
    · intro e
      obtain ⟨w, hw, -, hm⟩ := (h2 j hj).mp (by rw [e]; rfl)
      rw [e] at hw
      exact (Option.some.inj hw) ▸ hm
  · rintro ⟨h1, h2, h3⟩
    refine ⟨?_, ?_, ?_, ?_⟩
    · intro i hi j hj hlt e
      by_contra hne
      obtain ⟨v, hv⟩ := Option.ne_none_iff_exists'.mp hne
      have a := (h3 i hi v (h1 i hi v hv)).mp hv
      have b := (h3 j hj v (h1 i hi v hv)).mp (e ▸ hv)
      rw [a] at b
      have := Option.some.inj b
      omega
    · intro i hi j hj hlt e
      by_contra hne
      obtain ⟨v, hv⟩ := Option.ne_none_iff_exists'.mp hne
      have a := (h3 v (h2 i hi v hv) i hi).mpr hv
      have b := (h3 v (h2 i hi v hv) j hj).mpr (e ▸ hv)
      rw [a] at b
      have := Option.some.inj b
      omega
    · intro i hi
      constructor
      · intro hs
        obtain ⟨v, hv⟩ := Option.isSome_iff_exists.mp hs
        exact ⟨v, hv, h1 i hi v hv, (h3 i hi v (h1 i hi v hv)).mp hv⟩
      · rintro ⟨v, hv, -⟩; rw [hv]; rfl
    · intro j hj
      constructor
      · intro hs
        obtain ⟨v, hv⟩ := Option.isSome_iff_exists.mp hs
        exact ⟨v, hv, h2 j hj v hv, (h3 v (h2 j hj v hv) j hj).mpr hv⟩
      · rintro ⟨v, hv, -⟩; rw [hv]; rfl

theorem inverseSet_iff (f g : Arr (Finset Int)) : fznInverseSet f g ↔ InverseSet f g := by
  constructor
  · rintro ⟨h1, h2, h3⟩ i j
    constructor
    · rintro ⟨hi, hj⟩; exact ⟨h1 i hi hj, (h3 i hi j (h1 i hi hj)).mp hj⟩
    · rintro ⟨hj, hi⟩; exact ⟨h2 j hj hi, (h3 i (h2 j hj hi) j hj).mpr hi⟩
  · intro h
    refine ⟨fun i hi j hj => ((h i j).mp ⟨hi, hj⟩).1, fun j hj i hi => ((h i j).mpr ⟨hj, hi⟩).1, fun i hi j hj => ?_⟩
    exact ⟨fun e => ((h i j).mp ⟨hi, e⟩).2, fun e => ((h i j).mpr ⟨hj, e⟩).2⟩

theorem intSetChannel_iff (ints : Arr Int) (sets : Arr (Finset Int)) :
    fznIntSetChannel ints sets ↔ IntSetChannel ints sets := by
  constructor
  · rintro ⟨h1, h2, h3⟩ i j
    constructor
    · rintro ⟨hi, rfl⟩; exact ⟨h1 i hi, (h3 i hi _ (h1 i hi)).mp rfl⟩
    · rintro ⟨hj, hi⟩; exact ⟨h2 j hj hi, (h3 i (h2 j hj hi) j hj).mpr hi⟩
  · intro h
    refine ⟨fun i hi => ((h i _).mp ⟨hi, rfl⟩).1, fun j hj i hi => ((h i j).mpr ⟨hj, hi⟩).1, fun i hi j hj => ?_⟩
    exact ⟨fun e => ((h i j).mp ⟨hi, e⟩).2, fun e => ((h i j).mpr ⟨hj, e⟩).2⟩

theorem symmetric_iff (xs : Arr Int) : fznSymmetricAllDifferent xs ↔ Involution xs := by
  constructor
  · rintro ⟨-, h, -⟩ i hi
    exact ⟨(h i hi).1, (h i hi).2.2⟩
  · intro h
    refine ⟨?_, fun i hi => ⟨(h i hi).1, h i hi⟩, fun i hi => ⟨(h i hi).1, h i hi⟩⟩
    intro i hi j hj hlt e
    have a := (h i hi).2
    rw [e, (h j hj).2] at a
    omega

theorem linkSet_iff (s ub : Finset Int) (bs : Arr Bool) (hs : s ⊆ ub) (hub : ub ⊆ bs.idx) :
    ∃ P, linkSetToBooleans s ub bs = some P ∧ (P ↔ s = bs.idx.filter (fun i => bs i = true)) := by
  refine ⟨_, if_pos hub, ?_⟩
  constructor
  · intro h
    ext i
    rw [Finset.mem_filter]
    exact ⟨fun hi => ⟨hub (hs hi), (h i (hub (hs hi))).mpr hi⟩, fun hi => (h i hi.1).mp hi.2⟩
  · intro h i hi
    rw [h, Finset.mem_filter]
    exact ⟨fun e => ⟨hi, e⟩, fun e => e.2⟩

theorem range_iff (xs : Arr Int) (dom image ubd ubi : Finset Int) (hd : dom ⊆ ubd) (hi : image ⊆ ubi) (hub : ubd ⊆ xs.idx) :
    ∃ P, range xs dom image ubd ubi = some P ∧ (P ↔ Range xs dom image) := by
  refine ⟨_, if_pos hub, ?_⟩
  constructor
  · rintro ⟨h1, h2⟩ v
    constructor
    · intro hv
      obtain ⟨j, -, hj, e⟩ := h2 v (hi hv) hv
      exact ⟨j, hj, e⟩
    · rintro ⟨i, hid, rfl⟩; exact h1 i (hd hid) hid
  · intro h
    refine ⟨fun i _ hid => (h _).mpr ⟨i, hid, rfl⟩, fun v _ hv => ?_⟩
    obtain ⟨i, hid, e⟩ := (h v).mp hv
    exact ⟨i, hd hid, hid, e⟩

theorem roots_iff (xs : Arr Int) (pre image ubp ubi : Finset Int) (hp : pre ⊆ ubp) (hi : image ⊆ ubi) (hub : ubp ⊆ xs.idx) :
    ∃ P, roots xs pre image ubp ubi = some P ∧ (P ↔ Roots xs pre image) := by
  refine ⟨_, if_pos hub, ?_⟩
  constructor
  · rintro ⟨h1, h2⟩ i
    constructor
    · intro hip; exact ⟨hub (hp hip), h1 i (hp hip) hip⟩
    · rintro ⟨hx, him⟩; exact h2 _ (hi him) him i hx rfl
  · intro h
    refine ⟨fun i _ hip => ((h i).mp hip).2, fun v _ hv j hj e => (h j).mpr ⟨hj, e ▸ hv⟩⟩

end MZ.Chan
